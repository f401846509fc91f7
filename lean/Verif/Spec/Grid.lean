import Verif.Spec.Healpix
import Mathlib.Analysis.SpecialFunctions.Trigonometric.Inverse

/-!
# Sampling schemes

The five families of sample points on the sphere, from their published definitions: the number of
rings, the colatitude of each ring, the number of samples on it and their azimuths; and where a
sample sits in the signal array (row, column; for HEALPix the position in the pixel vector).
-/

namespace S2fft.Spec

/-- The supported sampling schemes. -/
inductive Scheme
  | mw | mwss | dh | gl | healpix
  deriving DecidableEq

namespace Scheme

/-- The documented name. -/
def name : Scheme → List Char
  | mw => "mw".toList
  | mwss => "mwss".toList
  | dh => "dh".toList
  | gl => "gl".toList
  | healpix => "healpix".toList

/-- Number of rings. -/
def rings (L nside : ℤ) : Scheme → ℤ
  | mw => L
  | mwss => L + 1
  | dh => 2 * L
  | gl => L
  | healpix => 4 * nside - 1

/-- Height `cos θ` of HEALPix ring `t`. -/
noncomputable def healpixZ (nside t : ℤ) : ℝ :=
  if t + 1 ≤ nside then 1 - ((t : ℝ) + 1) ^ 2 / (3 * (nside : ℝ) ^ 2)
  else if t + 1 ≤ 3 * nside then 4 / 3 - 2 * ((t : ℝ) + 1) / (3 * (nside : ℝ))
  else (4 * (nside : ℝ) - 1 - t) ^ 2 / (3 * (nside : ℝ) ^ 2) - 1

/-- Colatitude of ring `t`; `nodes L i` is the `i`-th zero of the Legendre polynomial of degree `L`,
in increasing order. -/
noncomputable def theta (nodes : ℤ → ℤ → ℝ) (L nside t : ℤ) : Scheme → ℝ
  | mw => (2 * t + 1) * Real.pi / (2 * L - 1)
  | mwss => t * Real.pi / L
  | dh => (2 * t + 1) * Real.pi / (4 * L)
  | gl => Real.arccos (nodes L (L - 1 - t))
  | healpix => Real.arccos (healpixZ nside t)

/-- Number of samples on ring `t`. -/
def ringLen (L nside t : ℤ) : Scheme → ℤ
  | mw => 2 * L - 1
  | mwss => 2 * L
  | dh => 2 * L - 1
  | gl => 2 * L - 1
  | healpix => ringSize nside t

/-- The fraction of a pixel by which the samples of ring `t` are moved away from azimuth zero. -/
noncomputable def shift (nside t : ℤ) : Scheme → ℝ
  | healpix =>
    if t + 1 < nside ∨ 3 * nside < t + 1 then 1 / 2
    else if (t + 1 - nside) % 2 = 0 then 1 / 2 else 0
  | _ => 0

/-- Azimuth of sample `p` of ring `t`. -/
noncomputable def phi (L nside t p : ℤ) (σ : Scheme) : ℝ :=
  2 * Real.pi * (p + σ.shift nside t) / σ.ringLen L nside t

/-- Position of sample `p` of ring `t` in the signal. -/
def pos (nside t p : ℤ) : Scheme → ℤ × ℤ
  | healpix => (0, ringStart nside t + p)
  | _ => (t, p)

/-- Shape of a signal. -/
def shape (L nside : ℤ) : Scheme → List ℤ
  | healpix => [12 * nside ^ 2]
  | σ => [σ.rings L nside, σ.ringLen L nside 0]

/-- Sample `p` of ring `t` exists. -/
def Has (L nside t p : ℤ) (σ : Scheme) : Prop :=
  0 ≤ t ∧ t < σ.rings L nside ∧ 0 ≤ p ∧ p < σ.ringLen L nside t

/-- Parameters for which the scheme makes sense. -/
def Valid (L nside : ℤ) (σ : Scheme) : Prop := 1 ≤ L ∧ (σ = healpix → 1 ≤ nside)

end Scheme
end S2fft.Spec
