import Mathlib.Algebra.Polynomial.Basic
import Mathlib.Data.Real.Basic

/-! # Legendre polynomials -/

namespace S2fft.Legendre
open Polynomial

/-- Legendre polynomials by Bonnet's recursion. -/
noncomputable def P : ℕ → ℝ[X]
  | 0 => 1
  | 1 => X
  | n + 2 => C (1 / ((n : ℝ) + 2)) * (C (2 * (n : ℝ) + 3) * X * P (n + 1) - C ((n : ℝ) + 1) * P n)

end S2fft.Legendre
