import Mathlib.Analysis.SpecialFunctions.Trigonometric.Basic
import Mathlib.Analysis.SpecialFunctions.Sqrt
import Mathlib.Algebra.Order.Floor.Ring

/-!
# Independent description of the HEALPix pixels

The HEALPix projection (Górski et al. 2005; Calabretta and Roukema 2007) maps the sphere to the plane.
Between the circles `|z| = 2/3` it is the cylindrical equal-area projection. Each polar cap is cut
into four quarters, which become triangles. In this plane every pixel is a square standing on a corner:
the points whose distance `|Δx| + |Δy|` from the centre of the pixel is less than `π / (4 nside)`.
-/

namespace S2fft.Spec

/-- Half of the angular width, in units of a quarter turn, of a polar triangle at height `z`. -/
noncomputable def hpSigma (z : ℝ) : ℝ := Real.sqrt (3 * (1 - |z|))

/-- Azimuth of the middle of the quarter that contains the azimuth `φ`. -/
noncomputable def hpMiddle (φ : ℝ) : ℝ := Real.pi / 4 * (2 * (⌊2 * φ / Real.pi⌋ : ℝ) + 1)

/-- First coordinate of the HEALPix projection of the direction with `cos θ = z` and azimuth `φ`. -/
noncomputable def hpX (z φ : ℝ) : ℝ :=
  if |z| ≤ 2 / 3 then φ else hpMiddle φ + (φ - hpMiddle φ) * hpSigma z

/-- Second coordinate of the HEALPix projection. -/
noncomputable def hpY (z : ℝ) : ℝ :=
  if |z| ≤ 2 / 3 then 3 * Real.pi / 8 * z
  else if 0 < z then Real.pi / 4 * (2 - hpSigma z) else -(Real.pi / 4 * (2 - hpSigma z))

/-- Distance in the plane between the projections of two directions. -/
noncomputable def hpDist (θ φ θ' φ' : ℝ) : ℝ :=
  |hpX (Real.cos θ) φ - hpX (Real.cos θ') φ'| + |hpY (Real.cos θ) - hpY (Real.cos θ')|

/-- The same with the first direction moved back by a full turn, for pixels that cross azimuth zero. -/
noncomputable def hpDistTurn (θ φ θ' φ' : ℝ) : ℝ :=
  |hpX (Real.cos θ) φ - 2 * Real.pi - hpX (Real.cos θ') φ'| +
    |hpY (Real.cos θ) - hpY (Real.cos θ')|

end S2fft.Spec
