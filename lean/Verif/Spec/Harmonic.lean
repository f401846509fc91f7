import Verif.Spec.Wigner
import Verif.Py.Fft

/-!
# Spin spherical harmonics

`ₛY_{lm}(θ, φ) = (-1)^s √((2l+1)/4π) d^l_{m,-s}(θ) e^{imφ}`.
-/

namespace S2fft.Spec

/-- The spin-`s` spherical harmonic of degree `l` and order `m`. -/
noncomputable def sYlm (s l m : ℤ) (θ φ : ℝ) : ℂ :=
  (-1) ^ s * (√((2 * (l : ℝ) + 1) / (4 * Real.pi)) * wignerd l m (-s) θ : ℝ) * cis (m * φ)

/-- The harmonic expansion with coefficients `c l m`, `lo ≤ l < L`, `|m| ≤ l`. -/
noncomputable def harmonicSum (lo L s : ℤ) (c : ℤ → ℤ → ℂ) (θ φ : ℝ) : ℂ :=
  ∑ l ∈ Finset.Ico lo L, ∑ m ∈ Finset.Ico (-l) (l + 1), c l m * sYlm s l m θ φ

/-- The coefficients of a real signal given those of non-negative order:
`c_{l,-m} = (-1)^m conj(c_{lm})`. -/
noncomputable def realCoeffs (c : ℤ → ℤ → ℂ) (l m : ℤ) : ℂ :=
  if m < 0 then (-1) ^ m * (starRingEnd ℂ) (c l (-m)) else c l m

end S2fft.Spec
