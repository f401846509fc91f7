import Verif.Spec.Harmonic

/-!
# Arrays of coefficients of another size

What a user does to change resolution: copy the coefficients both arrays have, and put zeros in the
rest of the new one.
-/

namespace S2fft.Spec

/-- The array for band limit `L'` with the coefficients of one for `L`. Order `m` is in column
`m + L - 1` of the one and `m + L' - 1` of the other. -/
noncomputable def resized (L L' : ℤ) (g : ℤ → ℤ → ℂ) (l k : ℤ) : ℂ :=
  if l < L ∧ |k - (L' - 1)| < L then g l (k - (L' - 1) + (L - 1)) else 0

/-- The same for coefficients on the rotation group, direction `n` being in plane `n + N - 1` of the
one and `n + N' - 1` of the other. -/
noncomputable def resized3 (L L' N N' : ℤ) (g : ℤ → ℤ → ℤ → ℂ) (k l j : ℤ) : ℂ :=
  if |k - (N' - 1)| < N then resized L L' (g (k - (N' - 1) + (N - 1))) l j else 0

end S2fft.Spec
