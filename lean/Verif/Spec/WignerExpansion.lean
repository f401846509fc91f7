import Verif.Spec.Wigner
import Verif.Py.Fft

/-!
# Wigner expansions on the rotation group

`f(α, β, γ) = Σ_{nlm} (2l+1)/(8π²) f^l_{mn} conj D^l_{mn}(α, β, γ)` with
`D^l_{mn}(α, β, γ) = e^{-imα} d^l_{mn}(β) e^{-inγ}`.
-/

namespace S2fft.Spec

/-- The Wigner D-function of degree `l`. -/
noncomputable def wignerD (l m n : ℤ) (α β γ : ℝ) : ℂ :=
  cis (-(m * α)) * (wignerd l m n β : ℝ) * cis (-(n * γ))

/-- The Wigner expansion with coefficients `c n l m`, `|n| < N`, `lo ≤ l < L`, `|m| ≤ l`. -/
noncomputable def wignerSum (lo L N : ℤ) (c : ℤ → ℤ → ℤ → ℂ) (α β γ : ℝ) : ℂ :=
  ∑ n ∈ Finset.Ioo (-N) N, ∑ l ∈ Finset.Ico lo L, ∑ m ∈ Finset.Ico (-l) (l + 1),
    (2 * (l : ℂ) + 1) / (8 * (Real.pi : ℂ) ^ 2) * c n l m
      * (starRingEnd ℂ) (wignerD l m n α β γ)

/-- The coefficients of a real signal given those with `n > 0`, or `n = 0` and `m ≥ 0`:
`c_{-n,l,-m} = (-1)^(m+n) conj(c_{nlm})`. -/
noncomputable def realWignerCoeffs (c : ℤ → ℤ → ℤ → ℂ) (n l m : ℤ) : ℂ :=
  if n < 0 ∨ n = 0 ∧ m < 0 then (-1) ^ (m + n) * (starRingEnd ℂ) (c (-n) l (-m)) else c n l m

/-- The `g`-th of the `2N-1` samples of the third Euler angle. -/
noncomputable def gammaAt (N g : ℤ) : ℝ := 2 * Real.pi * g / (2 * N - 1)

end S2fft.Spec
