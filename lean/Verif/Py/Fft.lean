import Verif.Py.Basic
import Mathlib.Analysis.SpecialFunctions.Complex.Circle
import Mathlib.Analysis.SpecialFunctions.Trigonometric.Bounds

/-!
# Discrete Fourier transforms as documented by `numpy.fft`

Exact-arithmetic meaning of the NumPy (and `jax.numpy`) transforms used by the modelled code.
The implementations (pocketfft, cuFFT) are trusted to compute these sums.
-/

namespace S2fft

/-- `e^{ix}`. -/
noncomputable def cis (x : ℝ) : ℂ := Complex.exp (x * Complex.I)

/-- `np.fft.fft(x)` of a length-`n` vector (also `norm="backward"`). -/
noncomputable def fft (n : ℤ) (x : ℤ → ℂ) (k : ℤ) : ℂ :=
  ∑ j ∈ Finset.Ico 0 n, x j * cis (-(2 * Real.pi * j * k / n))

/-- `np.fft.fft(x, norm="forward")`. -/
noncomputable def fft_fwd (n : ℤ) (x : ℤ → ℂ) (k : ℤ) : ℂ := fft n x k / n

/-- `np.fft.ifft(x, norm="forward")`: no `1/n`. -/
noncomputable def ifft_fwd (n : ℤ) (x : ℤ → ℂ) (p : ℤ) : ℂ :=
  ∑ k ∈ Finset.Ico 0 n, x k * cis (2 * Real.pi * k * p / n)

/-- `np.fft.ifft(x)` (also `norm="backward"`). -/
noncomputable def ifft (n : ℤ) (x : ℤ → ℂ) (p : ℤ) : ℂ := ifft_fwd n x p / n

/-- `np.fft.rfft(x)` for real `x`: entries `0 ≤ k ≤ n // 2` of the full transform. -/
noncomputable def rfft (n : ℤ) (x : ℤ → ℝ) (k : ℤ) : ℂ := fft n (fun j => (x j : ℂ)) k

/-- `np.fft.irfft(a, n, norm="forward")` where `a` has `len` entries, zero-padded or cropped to
`n // 2 + 1`. Only the real parts of the zero-frequency entry and (`n` even) of the Nyquist entry
are used. -/
noncomputable def irfft_fwd (len : ℤ) (a : ℤ → ℂ) (n : ℤ) (p : ℤ) : ℂ :=
  let a' : ℤ → ℂ := fun k => if k < len then a k else 0
  ((((a' 0).re
    + ∑ k ∈ Finset.Ico 1 ((n + 1) / 2), 2 * (a' k * cis (2 * Real.pi * k * p / n)).re
    + if n % 2 = 0 then (a' (n / 2)).re * (cis (Real.pi * p)).re else 0 : ℝ)) : ℂ)

/-- `np.fft.irfft(a, n)`. -/
noncomputable def irfft (len : ℤ) (a : ℤ → ℂ) (n : ℤ) (p : ℤ) : ℂ := irfft_fwd len a n p / n

/-- `np.fft.fftshift` of a length-`n` vector: `roll(x, n // 2)`. -/
def fftshift {α : Type*} (n : ℤ) (x : ℤ → α) (k : ℤ) : α := x ((k - n / 2) % n)

/-- `np.fft.ifftshift` of a length-`n` vector: `roll(x, -(n // 2))`. -/
def ifftshift {α : Type*} (n : ℤ) (x : ℤ → α) (k : ℤ) : α := x ((k + n / 2) % n)

end S2fft
