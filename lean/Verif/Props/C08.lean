import Verif.Lemmas.HealpixDispatch

/-! # C08: the HEALPix inverse ring FFT evaluates the Fourier series at the pixels -/

namespace S2fft
open Spec

/-- For every method, resolution, band-limit `L ≥ 2 nside` and coefficient array, pixel `p` of
ring `t` receives the whole Fourier series of row `t` (orders `-L ≤ m < L`, column `L + m`), at
the angle of that pixel measured from the first pixel of its ring. With `reality`, the same holds
for coefficients of a real signal. -/
theorem C08_series (L nside : ℤ) (hn : 1 ≤ nside) (hL : 2 * nside ≤ L) (ftm : ℤ → ℤ → ℂ)
    (reality : Bool)
    (hreal : reality = true → ∀ t, 0 ≤ t → t < 4 * nside - 1 → ftm t 0 = 0 ∧
      ∀ m, 0 ≤ m → m < L → ftm t (L - m) = (starRingEnd ℂ) (ftm t (L + m)))
    (method : PyStr) (hm : method ∈ [mNumpy, mJax, mTorch, mCuda]) (env : CudaEnv)
    (henv : method = mCuda → env.Reachable (4 * nside - 1)) :
    ∃ f ftm', healpix_ifft env ftm L nside method reality = .ok (f, ftm') ∧
      ∀ t p, 0 ≤ t → t < 4 * nside - 1 → 0 ≤ p → p < ringSize nside t →
        f (ringStart nside t + p) =
          ∑ m ∈ Finset.Ico (-L) L,
            ftm t (L + m) * cis (2 * Real.pi * m * p / ringSize nside t) :=
  healpix_ifft_values hn hL ftm reality hreal hm henv

/-- With the ring phase shifts applied (as the transforms do), every pixel receives
`∑_{|m|<L} g_t(m) e^{i m φ}` at its own azimuth `φ`. -/
theorem C08_pixels (L nside : ℤ) (hn : 1 ≤ nside) (hL : 2 * nside ≤ L) (g : ℤ → ℤ → ℂ)
    (reality : Bool)
    (hreal : reality = true → ∀ t m, 0 ≤ t → t < 4 * nside - 1 → -L < m → m < L →
      g t (-m) = (starRingEnd ℂ) (g t m))
    (method : PyStr) (hm : method ∈ [mNumpy, mJax, mTorch, mCuda]) (env : CudaEnv)
    (henv : method = mCuda → env.Reachable (4 * nside - 1)) (ftm : ℤ → ℤ → ℂ)
    (h0 : ∀ t, ftm t 0 = 0)
    (hftm : ∀ t j, 0 ≤ t → t < 4 * nside - 1 → 0 ≤ j → j < 2 * L - 1 →
      ftm t (j + 1) = g t (j - (L - 1)) * ring_phase_shifts_hp L nside false false t j) :
    ∃ f ftm', healpix_ifft env ftm L nside method reality = .ok (f, ftm') ∧
      ∀ t p, 0 ≤ t → t < 4 * nside - 1 → 0 ≤ p → p < ringSize nside t →
        f (ringStart nside t + p) =
          ∑ m ∈ Finset.Ioo (-L) L, g t m * cis (m * p2phi_ring t p nside) := by
  have hcol : ∀ t m, 0 ≤ t → t < 4 * nside - 1 → -L < m → m < L →
      ftm t (L + m) = g t m * cis (m * p2phi_ring t 0 nside) := by
    intro t m a b c d
    have := hftm t (L + m - 1) a b (by omega) (by omega)
    rw [show L + m - 1 + 1 = L + m by ring, show L + m - 1 - (L - 1) = m by ring] at this
    rw [this]
    unfold ring_phase_shifts_hp
    simp only [Bool.false_eq_true, if_false]
    rw [p2phi_rings_eq hn a b]
    congr 2; push_cast; ring
  obtain ⟨f, ftm', e, hf⟩ := healpix_ifft_values hn hL ftm reality (by
    intro hr t a b
    refine ⟨h0 t, fun m c d => ?_⟩
    rw [sub_eq_add_neg, hcol t (-m) a b (by omega) (by omega), hcol t m a b (by omega) d,
      map_mul, hreal hr t m a b (by omega) d, conj_cis]
    congr 2; push_cast; ring) hm henv
  refine ⟨f, ftm', e, fun t p a b c d => ?_⟩
  rw [hf t p a b c d]
  unfold ringSynth
  have hs : Finset.Ico (-L) L = insert (-L) (Finset.Ioo (-L) L) := by
    ext x; simp only [Finset.mem_Ico, Finset.mem_insert, Finset.mem_Ioo]; omega
  rw [hs, Finset.sum_insert (by simp), show L + -L = 0 by ring, h0, zero_mul, zero_add]
  apply Finset.sum_congr rfl; intro m hm'
  simp only [Finset.mem_Ioo] at hm'
  rw [hcol t m a b hm'.1 hm'.2, mul_assoc, ← cis_add, p2phi_ring_eq a b p]
  congr 2; ring

/-- `L < 2 nside` and unknown methods are refused. -/
theorem C08_reject (env : CudaEnv) (ftm : ℤ → ℤ → ℂ) (L nside : ℤ) (method : PyStr)
    (reality : Bool) :
    (L < 2 * nside →
      healpix_ifft env ftm L nside method reality = .error .assertionError) ∧
    (2 * nside ≤ L → method ∉ [mNumpy, mJax, mTorch, mCuda] →
      healpix_ifft env ftm L nside method reality = .error .valueError) := by
  unfold healpix_ifft
  constructor
  · intro h; rw [if_pos (by omega)]
  · intro h hm
    simp only [List.mem_cons, List.not_mem_nil, or_false, not_or] at hm
    obtain ⟨h1, h2, h3, h4⟩ := hm
    rw [if_neg (by omega), if_neg h1, if_neg (by tauto), if_neg h4]

/-- The phase shifts of `utils/healpix_ffts.py` and of `sampling/s2_samples.py` are the same. -/
theorem C08_phase_shifts (L nside t j : ℤ) (hn : 1 ≤ nside) (h0 : 0 ≤ t) (h1 : t < 4 * nside - 1)
    (forward reality : Bool) :
    ring_phase_shift_hp L t nside forward reality j
      = ring_phase_shifts_hp L nside forward reality t j := by
  unfold ring_phase_shift_hp ring_phase_shifts_hp
  simp only
  rw [p2phi_rings_eq hn h0 h1]
  congr 1; push_cast; ring

/-- A reachable GPU environment: empty caches, threads in descending order. -/
example : (⟨⟨[], []⟩, true, (pyRange (Cuda.launched 7)).reverse, fun _ => 0⟩ : CudaEnv).Reachable
    (4 * 2 - 1) :=
  ⟨⟨[], by simp, rfl⟩, List.reverse_perm _⟩

/-- Hermitian coefficients exist beyond zero (`nside = 2`, `L = 4`). -/
example : ∃ g : ℤ → ℤ → ℂ, (∀ t m, g t (-m) = (starRingEnd ℂ) (g t m)) ∧ g 0 1 = Complex.I :=
  ⟨fun _ m => m * Complex.I, fun t m => by simp, by simp⟩

end S2fft
