import Mathlib.Data.Int.Interval
import Mathlib.Algebra.BigOperators.Group.Finset.Basic

/-!
# Independent description of the HEALPix ring layout

Rings are numbered `t = 0, …, 4 nside - 2` from north to south; ring `t` has four pixels per step
of distance from the nearer pole, capped at `4 nside`.
-/

namespace S2fft.Spec

/-- Number of pixels of ring `t`. -/
def ringSize (nside t : ℤ) : ℤ := 4 * min (t + 1) (min nside (4 * nside - 1 - t))

/-- Index of the first pixel of ring `t`: the number of pixels in earlier rings. -/
def ringStart (nside t : ℤ) : ℤ := ∑ s ∈ Finset.Ico 0 t, ringSize nside s

end S2fft.Spec
