import Verif.Spec.WignerExpansion

/-! # The size of Wigner coefficients -/

namespace S2fft.Spec

/-- The size of the Wigner coefficients: a bound of the expansion. -/
noncomputable def so3Size (L N : ℤ) (c : ℤ → ℤ → ℤ → ℂ) : ℝ :=
  ∑ n ∈ Finset.Ioo (-N) N, ∑ l ∈ Finset.Ico 0 L, ∑ m ∈ Finset.Ico (-l) (l + 1),
    (2 * (l : ℝ) + 1) / (8 * Real.pi ^ 2) * ‖c n l m‖

end S2fft.Spec
