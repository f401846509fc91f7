import Verif.Py.Fft
import Mathlib.Analysis.SpecialFunctions.Integrals.Basic

/-! # Band-limited signals on the sphere, as trigonometric polynomials

A band-limited spin-`s` signal is a trigonometric polynomial of degree `< L` in both angles whose
order-`m` component has parity `(-1)^(m+s)` when continued to `θ ∈ [π, 2π]` over the pole. (That
the spin-weighted spherical harmonic expansion gives such signals is part of property C18.) -/

namespace S2fft.Spec

/-- Trigonometric polynomial of degree `< L` with coefficients `c`. -/
noncomputable def trigPoly (L : ℤ) (c : ℤ → ℂ) (θ : ℝ) : ℂ :=
  ∑ k ∈ Finset.Ioo (-L) L, c k * cis (k * θ)

/-- Signal with Fourier coefficients `F m k` (order `m`, `|m| < M`, in `φ`; `k`, `|k| < K`, in
`θ`). -/
noncomputable def sphSignal (K M : ℤ) (F : ℤ → ℤ → ℂ) (θ φ : ℝ) : ℂ :=
  ∑ m ∈ Finset.Ioo (-M) M, trigPoly K (F m) θ * cis (m * φ)

/-- Continuation over the pole: parity `(-1)^(m+s)`. -/
def PoleParity (s : ℤ) (F : ℤ → ℤ → ℂ) : Prop := ∀ m k, F m (-k) = (-1) ^ (m + s) * F m k

/-- Integral over the sphere. -/
noncomputable def sphIntegral (f : ℝ → ℝ → ℂ) : ℂ :=
  ∫ θ in (0 : ℝ)..Real.pi, (∫ φ in (0 : ℝ)..(2 * Real.pi), f θ φ) * (Real.sin θ : ℂ)

end S2fft.Spec
