import Verif.Spec.Backends
import Verif.Spec.WignerExpansion

/-!
# Inner products of samples and of coefficients

The inner product of two sampled signals under a quadrature rule with one weight per ring, and that
of two families of harmonic coefficients.
-/

namespace S2fft.Spec

/-- `∑ w f conj(g)` over the samples of a grid; `w t` is the weight of the samples on ring `t`. -/
noncomputable def sampleInner (σ : Scheme) (L nside : ℤ) (w : ℤ → ℝ) (f g : ℤ → ℤ → ℂ) : ℂ :=
  gridSum σ L nside fun t p => w t * f (σ.pos nside t p).1 (σ.pos nside t p).2
    * (starRingEnd ℂ) (g (σ.pos nside t p).1 (σ.pos nside t p).2)

/-- `∑ a conj(b)` over the degrees `lo ≤ l < L` and their orders. -/
noncomputable def coeffInner (lo L : ℤ) (a b : ℤ → ℤ → ℂ) : ℂ :=
  lmSum lo L fun l m => a l m * (starRingEnd ℂ) (b l m)

/-- The weighted sum of squared absolute values of samples. -/
noncomputable def sampleEnergy (σ : Scheme) (L nside : ℤ) (w : ℤ → ℝ) (f : ℤ → ℤ → ℂ) : ℝ :=
  ∑ t ∈ Finset.Ico 0 (σ.rings L nside), ∑ p ∈ Finset.Ico 0 (σ.ringLen L nside t),
    w t * ‖f (σ.pos nside t p).1 (σ.pos nside t p).2‖ ^ 2

/-- The sum of squared absolute values of coefficients. -/
noncomputable def coeffEnergy (lo L : ℤ) (c : ℤ → ℤ → ℂ) : ℝ :=
  ∑ l ∈ Finset.Ico lo L, ∑ m ∈ Finset.Ico (-l) (l + 1), ‖c l m‖ ^ 2

/-- On the rotation group: `∑ w (2π / (2N-1)) f conj(g)` over the samples of the three angles. -/
noncomputable def so3Inner (σ : Scheme) (L N nside : ℤ) (w : ℤ → ℝ) (f g : ℤ → ℤ → ℤ → ℂ) : ℂ :=
  2 * Real.pi / (2 * (N : ℂ) - 1)
    * ∑ k ∈ Finset.Ico 0 (2 * N - 1), sampleInner σ L nside w (f k) (g k)

/-- `∑ (2l+1) / (8π²) a conj(b)` over the directions `|n| < N`, the degrees `max(lo, |n|) ≤ l < L` and
their orders: the functions `D` have square norm `8π² / (2l+1)`. -/
noncomputable def wignerInner (lo L N : ℤ) (a b : ℤ → ℤ → ℤ → ℂ) : ℂ :=
  ∑ n ∈ Finset.Ioo (-N) N, lmSum (max lo |n|) L fun l m =>
    (2 * (l : ℂ) + 1) / (8 * (Real.pi : ℂ) ^ 2) * (a n l m * (starRingEnd ℂ) (b n l m))

/-- The weighted sum of squared absolute values of samples on the rotation group. -/
noncomputable def so3Energy (σ : Scheme) (L N nside : ℤ) (w : ℤ → ℝ) (f : ℤ → ℤ → ℤ → ℂ) : ℝ :=
  2 * Real.pi / (2 * N - 1) * ∑ k ∈ Finset.Ico 0 (2 * N - 1), sampleEnergy σ L nside w (f k)

/-- The energy of Wigner coefficients. -/
noncomputable def wignerEnergy (lo L N : ℤ) (c : ℤ → ℤ → ℤ → ℂ) : ℝ :=
  ∑ n ∈ Finset.Ioo (-N) N, ∑ l ∈ Finset.Ico (max lo |n|) L, ∑ m ∈ Finset.Ico (-l) (l + 1),
    (2 * (l : ℝ) + 1) / (8 * Real.pi ^ 2) * ‖c n l m‖ ^ 2

end S2fft.Spec
