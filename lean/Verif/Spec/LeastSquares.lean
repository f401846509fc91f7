import Verif.Spec.Energy

/-!
# Best approximation

The distance of sampled data from synthesized signals, under a quadrature rule with one weight per
ring.
-/

namespace S2fft.Spec

/-- The samples `F`, synthesized from the coefficients `g`, are at least as close to the data `f` as the
samples `H`, synthesized from the coefficients `c`: the squared distances differ by the squared distance
of the coefficients, over the degrees `lo ≤ l < L`; they agree only if the coefficients do. -/
def Closer (σ : Scheme) (L nside : ℤ) (w : ℤ → ℝ) (lo : ℤ) (f F H g c : ℤ → ℤ → ℂ) : Prop :=
  sampleEnergy σ L nside w (f - H) = sampleEnergy σ L nside w (f - F) + coeffEnergy lo L (g - c) ∧
  sampleEnergy σ L nside w (f - F) ≤ sampleEnergy σ L nside w (f - H) ∧
  (sampleEnergy σ L nside w (f - F) = sampleEnergy σ L nside w (f - H)
    ↔ ∀ l m, lo ≤ l → l < L → |m| ≤ l → g l m = c l m)

/-- The energy of the data `f` is that of the coefficients `g` and that of the remainder `f - F`; so
the coefficients never have more energy than the data, and as much only if `F` meets the data at
every sample. -/
def Captures (σ : Scheme) (L nside : ℤ) (w : ℤ → ℝ) (lo : ℤ) (f F g : ℤ → ℤ → ℂ) : Prop :=
  sampleEnergy σ L nside w f = coeffEnergy lo L g + sampleEnergy σ L nside w (f - F) ∧
  coeffEnergy lo L g ≤ sampleEnergy σ L nside w f ∧
  (coeffEnergy lo L g = sampleEnergy σ L nside w f ↔ ∀ t p, σ.Has L nside t p →
    f (σ.pos nside t p).1 (σ.pos nside t p).2 = F (σ.pos nside t p).1 (σ.pos nside t p).2)

/-- `Closer` on the rotation group. -/
def CloserSo3 (σ : Scheme) (L N nside : ℤ) (w : ℤ → ℝ) (lo : ℤ) (f F H g c : ℤ → ℤ → ℤ → ℂ) : Prop :=
  so3Energy σ L N nside w (f - H)
    = so3Energy σ L N nside w (f - F) + wignerEnergy lo L N (g - c) ∧
  so3Energy σ L N nside w (f - F) ≤ so3Energy σ L N nside w (f - H) ∧
  (so3Energy σ L N nside w (f - F) = so3Energy σ L N nside w (f - H)
    ↔ ∀ n l m, |n| < N → max lo |n| ≤ l → l < L → |m| ≤ l → g n l m = c n l m)

/-- `Captures` on the rotation group. -/
def CapturesSo3 (σ : Scheme) (L N nside : ℤ) (w : ℤ → ℝ) (lo : ℤ) (f F g : ℤ → ℤ → ℤ → ℂ) : Prop :=
  so3Energy σ L N nside w f = wignerEnergy lo L N g + so3Energy σ L N nside w (f - F) ∧
  wignerEnergy lo L N g ≤ so3Energy σ L N nside w f ∧
  (wignerEnergy lo L N g = so3Energy σ L N nside w f ↔
    ∀ k t p, 0 ≤ k → k < 2 * N - 1 → σ.Has L nside t p →
      f k (σ.pos nside t p).1 (σ.pos nside t p).2 = F k (σ.pos nside t p).1 (σ.pos nside t p).2)

end S2fft.Spec
