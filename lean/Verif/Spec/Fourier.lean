import Verif.Spec.Healpix
import Verif.Py.Fft

/-! # Reference Fourier synthesis and analysis on HEALPix rings -/

namespace S2fft.Spec

/-- Fourier series of row `t` (orders `-L ≤ m < L`, order `m` in column `L + m`) at the `p`-th
of the equally spaced pixels of the ring, measured from its first pixel. -/
noncomputable def ringSynth (nside L : ℤ) (ftm : ℤ → ℤ → ℂ) (t p : ℤ) : ℂ :=
  ∑ m ∈ Finset.Ico (-L) L, ftm t (L + m) * cis (2 * Real.pi * m * p / ringSize nside t)

/-- Fourier sum of order `m` over the pixels of ring `t`. -/
noncomputable def ringAnal (nside : ℤ) (f : ℤ → ℂ) (t m : ℤ) : ℂ :=
  ∑ p ∈ Finset.Ico 0 (ringSize nside t),
    f (ringStart nside t + p) * cis (-(2 * Real.pi * m * p / ringSize nside t))

end S2fft.Spec
