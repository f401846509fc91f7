import Verif.Spec.WignerExpansion

/-! # The size of an array of Wigner coefficients -/

namespace S2fft.Spec

/-- A bound for the Wigner expansion of the array `flmn[N - 1 + n, l, m + L - 1]`, as the functions are
at most one in size. The entries that are no coefficients, those with `|m| > l` or `|n| > l`, count as
well: the transforms multiply them by computed values of zero. With `reality` the planes of negative
`n` are not read, and those of `-n` count in their place. -/
noncomputable def so3CoeffSize (L N : ℤ) (reality : Bool) (flmn : ℤ → ℤ → ℤ → ℂ) : ℝ :=
  ∑ n ∈ Finset.Ioo (-N) N, ∑ l ∈ Finset.Ico 0 L, ∑ m ∈ Finset.Ioo (-L) L,
    (2 * (l : ℝ) + 1) / (8 * Real.pi ^ 2)
      * ‖flmn (N - 1 + (if reality = true then |n| else n)) l (m + L - 1)‖

end S2fft.Spec
