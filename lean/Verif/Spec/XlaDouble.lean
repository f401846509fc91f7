import Verif.Spec.DoubleFft

/-!
# Double precision under a compiler

What XLA may do to the arithmetic of a compiled function in 64-bit mode: a product that is added to
something may be contracted into one operation with a single rounding, and a division by a constant
may become a multiplication by its rounded reciprocal. Different places of a program may be compiled
differently, so both operations carry the place at which they are done.
-/

namespace S2fft.Spec

/-- A floating point library with a compiler that may contract and may divide by multiplying. -/
structure XlaLib extends FftLib where
  /-- `v + a * b` at a place of the program -/
  mulAdd : List ℤ → ℝ → ℝ → ℝ → ℝ
  /-- `x / y` for a constant `y` at a place of the program -/
  quot : List ℤ → ℝ → ℝ → ℝ
  mulAdd_is : ∀ at_ v a b, mulAdd at_ v a b = fl (v + fl (a * b)) ∨ mulAdd at_ v a b = fl (v + a * b)
  quot_is : ∀ at_ x y, quot at_ x y = fl (x / y) ∨ quot at_ x y = fl (x * fl (1 / y))

end S2fft.Spec
