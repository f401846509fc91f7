import Verif.Spec.Grid
import Verif.Spec.WignerExpansion
import Mathlib.Analysis.SpecialFunctions.Trigonometric.Basic

/-!
# Turning a sampled signal about the polar axis

Turning by an angle that takes every sample point of a grid to a sample point permutes the samples.
-/

namespace S2fft.Spec

/-- Equal up to a whole number of turns. -/
def SameAngle (x y : ℝ) : Prop := ∃ k : ℤ, x = y + 2 * Real.pi * k

/-- `f'` is `f` turned by `α` about the polar axis: the value of `f` at every sample `(θ, φ)` is the
value of `f'` at `(θ, φ + α)`, which is a sample too. -/
def Turned (σ : Scheme) (L nside : ℤ) (α : ℝ) (f f' : ℤ → ℤ → ℂ) : Prop :=
  ∀ t p, σ.Has L nside t p → ∃ p', σ.Has L nside t p' ∧
    SameAngle (σ.phi L nside t p') (σ.phi L nside t p + α) ∧
    f' (σ.pos nside t p').1 (σ.pos nside t p').2 = f (σ.pos nside t p).1 (σ.pos nside t p).2

/-- Turning by `α` takes samples to samples. -/
def TurnsGrid (σ : Scheme) (L nside : ℤ) (α : ℝ) : Prop :=
  ∀ t p, σ.Has L nside t p → ∃ p', σ.Has L nside t p' ∧
    SameAngle (σ.phi L nside t p') (σ.phi L nside t p + α)

/-- The coefficients of the turned signal: order `m`, stored in column `m + L - 1`, times
`exp(-i m α)`. -/
noncomputable def turnCoeffs (L : ℤ) (α : ℝ) (c : ℤ → ℤ → ℂ) : ℤ → ℤ → ℂ :=
  fun l k => Complex.exp (-((k - L + 1 : ℤ) * α * Complex.I)) * c l k

/-- The same on the rotation group, turning by `α` in the first and by `γ` in the last angle. -/
def TurnedSo3 (σ : Scheme) (L N nside : ℤ) (α γ : ℝ) (f f' : ℤ → ℤ → ℤ → ℂ) : Prop :=
  ∀ g t p, 0 ≤ g → g < 2 * N - 1 → σ.Has L nside t p → ∃ g' p', 0 ≤ g' ∧ g' < 2 * N - 1 ∧
    σ.Has L nside t p' ∧ SameAngle (σ.phi L nside t p') (σ.phi L nside t p + α) ∧
    SameAngle (gammaAt N g') (gammaAt N g + γ) ∧
    f' g' (σ.pos nside t p').1 (σ.pos nside t p').2 = f g (σ.pos nside t p).1 (σ.pos nside t p).2

/-- The coefficients of the signal turned on the rotation group: direction `n`, stored in plane
`N - 1 + n`, and order `m` times `exp(-i (m α + n γ))`. -/
noncomputable def turnWigner (L N : ℤ) (α γ : ℝ) (c : ℤ → ℤ → ℤ → ℂ) : ℤ → ℤ → ℤ → ℂ :=
  fun j l k => Complex.exp (-(((k - L + 1 : ℤ) * α + (j - N + 1 : ℤ) * γ) * Complex.I)) * c j l k

/-- Turning by `γ` takes samples of the third angle to samples. -/
def TurnsGamma (N : ℤ) (γ : ℝ) : Prop :=
  ∀ g, 0 ≤ g → g < 2 * N - 1 → ∃ g', 0 ≤ g' ∧ g' < 2 * N - 1 ∧
    SameAngle (gammaAt N g') (gammaAt N g + γ)

end S2fft.Spec
