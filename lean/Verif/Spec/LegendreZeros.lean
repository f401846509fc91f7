import Verif.Spec.Legendre
import Mathlib.Algebra.Polynomial.Eval.Defs

/-! # The nodes of Gauss–Legendre quadrature -/

namespace S2fft.Spec

/-- The zeros of the Legendre polynomial of degree `L`, in increasing order. -/
structure LegendreZeros (x : ℤ → ℝ) (L : ℤ) : Prop where
  mono : ∀ i j, 0 ≤ i → i < j → j < L → x i < x j
  root : ∀ i, 0 ≤ i → i < L → (Legendre.P L.toNat).eval (x i) = 0

end S2fft.Spec
