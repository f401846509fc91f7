import Verif.Spec.Harmonic

/-! # The size of a set of harmonic coefficients -/

namespace S2fft.Spec

/-- A bound for the expansion with the coefficients `c`, as `|sYlm| ≤ √((2l+1)/(4π))`. The entries of
the array that are no coefficients, those with `|m| > l`, count as well: the transforms multiply them
by computed values of zero. -/
noncomputable def coeffSize (L : ℤ) (c : ℤ → ℤ → ℂ) : ℝ :=
  ∑ l ∈ Finset.Ico 0 L, ∑ m ∈ Finset.Ioo (-L) L, √((2 * (l : ℝ) + 1) / (4 * Real.pi)) * ‖c l m‖

/-- The coefficients that an array `flm[l, m + L - 1]` stands for; with `reality` the entries of
negative order are not read. -/
noncomputable def effCoeffs (flm : ℤ → ℤ → ℂ) (L : ℤ) (reality : Bool) : ℤ → ℤ → ℂ :=
  if reality = true then realCoeffs (fun l m => flm l (m + L - 1)) else fun l m => flm l (m + L - 1)

end S2fft.Spec
