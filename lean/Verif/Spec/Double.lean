import Mathlib.Analysis.SpecialFunctions.Trigonometric.Inverse
import Mathlib.Data.Real.Basic

/-!
# Independent description of double precision arithmetic

Doubles have 53 binary digits, and are multiples of `2⁻¹⁰⁷⁴` (gradual underflow). Overflow is left
out: there is no largest number.
-/

namespace S2fft.Spec

/-- Numbers with 53 binary digits, the last of them worth at least `2⁻¹⁰⁷⁴`. -/
def IsDouble (x : ℝ) : Prop := ∃ m e : ℤ, |m| ≤ 2 ^ 53 ∧ -1074 ≤ e ∧ x = m * (2 : ℝ) ^ e

/-- Rounding to a nearest double, with any rule for ties. -/
def RoundsToNearest (fl : ℝ → ℝ) : Prop :=
  ∀ x, IsDouble (fl x) ∧ ∀ y, IsDouble y → |x - fl x| ≤ |x - y|

/-- A floating point library. Sums, products, quotients and square roots are rounded to nearest, as
IEEE 754 asks. The sine, the cosine and the inverse cosine are off by at most `2⁻⁵⁰`, several units
in the last place. -/
structure DoubleLib where
  /-- rounding -/
  fl : ℝ → ℝ
  /-- cosine -/
  cos : ℝ → ℝ
  /-- sine -/
  sin : ℝ → ℝ
  /-- inverse cosine -/
  arccos : ℝ → ℝ
  nearest : RoundsToNearest fl
  cos_near : ∀ x, |cos x - Real.cos x| ≤ 1 / 2 ^ 50
  sin_near : ∀ x, |sin x - Real.sin x| ≤ 1 / 2 ^ 50
  arccos_near : ∀ x, -1 ≤ x → x ≤ 1 → |arccos x - Real.arccos x| ≤ 1 / 2 ^ 50

end S2fft.Spec
