import Verif.Py.Basic
import Mathlib.Analysis.SpecialFunctions.Trigonometric.Basic
import Mathlib.Analysis.SpecialFunctions.Sqrt

/-! # The Wigner small-d functions

Wigner's explicit formula (e.g. Varshalovich et al. 1988, 4.3.1; Wikipedia "Wigner D-matrix"):
`d^l_{mn}(β) = Σ_s (-1)^(m-n+s) √((l+m)!(l-m)!(l+n)!(l-n)!) / ((l+n-s)! s! (m-n+s)! (l-m-s)!)
  · cos(β/2)^(2l+n-m-2s) · sin(β/2)^(m-n+2s)`,
the sum running over the `s` for which no factorial has a negative argument. -/

namespace S2fft.Spec

/-- Factorial of a non-negative integer. -/
def fact (z : ℤ) : ℝ := (z.toNat.factorial : ℝ)

/-- `d^l_{mn}(β)`, and zero when `|m| > l` or `|n| > l`. -/
noncomputable def wignerd (l m n : ℤ) (β : ℝ) : ℝ :=
  if |m| ≤ l ∧ |n| ≤ l then
    ∑ s ∈ Finset.Icc (max 0 (n - m)) (min (l + n) (l - m)),
      (-1) ^ (m - n + s).toNat *
        Real.sqrt (fact (l + m) * fact (l - m) * fact (l + n) * fact (l - n)) /
        (fact (l + n - s) * fact s * fact (m - n + s) * fact (l - m - s)) *
        Real.cos (β / 2) ^ (2 * l + n - m - 2 * s).toNat *
        Real.sin (β / 2) ^ (m - n + 2 * s).toNat
  else 0

end S2fft.Spec
