import Verif.Spec.Double
import Verif.Py.Fft

/-!
# Complex arithmetic, sums and Fourier transforms in double precision

How accurate `numpy` is assumed to be: products, sums in any order and Fast Fourier Transforms by any
algorithm, up to a few units in the last place for each of the terms. The terms `2⁻¹⁰⁰⁰` stand for
gradual underflow.
-/

namespace S2fft.Spec

/-- A floating point library with complex numbers, sums of products (`np.einsum`) and Fourier
transforms (`np.fft`). -/
structure FftLib extends DoubleLib where
  /-- product of two complex numbers -/
  mul : ℂ → ℂ → ℂ
  /-- `1j**k` -/
  ipow : ℤ → ℂ
  /-- sum of `n` products -/
  dot : ℤ → (ℤ → ℂ) → (ℤ → ℂ) → ℂ
  /-- `np.fft.fft(x)` of a vector of length `n` -/
  fft : ℤ → (ℤ → ℂ) → ℤ → ℂ
  /-- `np.fft.ifft(x, norm="forward")` of a vector of length `n` -/
  ifft : ℤ → (ℤ → ℂ) → ℤ → ℂ
  /-- `np.fft.rfft(x)` of a real vector of length `n` -/
  rfft : ℤ → (ℤ → ℝ) → ℤ → ℂ
  /-- `np.fft.irfft(a, n, norm="forward")` of a vector of length `len` -/
  irfft : ℤ → (ℤ → ℂ) → ℤ → ℤ → ℝ
  mul_near : ∀ a b, ‖mul a b - a * b‖ ≤ ‖a‖ * ‖b‖ / 2 ^ 50 + 1 / 2 ^ 1000
  ipow_near : ∀ k, ‖ipow k - Complex.I ^ k‖ ≤ (|(k : ℝ)| + 1) / 2 ^ 50
  dot_near : ∀ n a b, 0 ≤ n → ‖dot n a b - ∑ k ∈ Finset.Ico 0 n, a k * b k‖
    ≤ n / 2 ^ 50 * (∑ k ∈ Finset.Ico 0 n, ‖a k‖ * ‖b k‖) + n / 2 ^ 1000
  fft_near : ∀ n x k, 0 ≤ k → k < n → ‖fft n x k - S2fft.fft n x k‖
    ≤ n / 2 ^ 50 * (∑ j ∈ Finset.Ico 0 n, ‖x j‖) + n / 2 ^ 1000
  ifft_near : ∀ n x p, 0 ≤ p → p < n → ‖ifft n x p - ifft_fwd n x p‖
    ≤ n / 2 ^ 50 * (∑ k ∈ Finset.Ico 0 n, ‖x k‖) + n / 2 ^ 1000
  rfft_near : ∀ n x k, 0 ≤ k → 2 * k ≤ n → 0 < n → ‖rfft n x k - S2fft.rfft n x k‖
    ≤ n / 2 ^ 50 * (∑ j ∈ Finset.Ico 0 n, |x j|) + n / 2 ^ 1000
  irfft_near : ∀ len a n p, 0 ≤ len → 0 ≤ p → p < n → |irfft len a n p - (irfft_fwd len a n p).re|
    ≤ n / 2 ^ 50 * (∑ k ∈ Finset.Ico 0 len, 2 * ‖a k‖) + n / 2 ^ 1000

end S2fft.Spec
