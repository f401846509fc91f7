import Verif.Lemmas.HealpixDispatch

/-! # C09: the HEALPix forward ring FFT computes every ring's Fourier sums -/

namespace S2fft
open Spec

/-- For every method, resolution and band-limit `L ≥ 2 nside`, column `L + m` of row `t` is the
Fourier sum of order `m` over the pixels of ring `t`, for every `-L ≤ m < L` (for `m ≥ 0` with
`reality`, on real maps). The JAX and torch methods need `nside ≥ 2`, see
`C10_jax_nside_one`. -/
theorem C09_sums (L nside : ℤ) (hn : 1 ≤ nside) (hL : 2 * nside ≤ L) (f : ℤ → ℂ)
    (reality : Bool) (hreal : reality = true → ∀ i, (f i).im = 0)
    (method : PyStr) (hm : method ∈ [mNumpy, mJax, mTorch, mCuda])
    (hn2 : method = mJax ∨ method = mTorch → 2 ≤ nside) (env : CudaEnv)
    (henv : method = mCuda → env.Reachable (2 * L * (4 * nside - 1))) :
    ∃ ftm f', healpix_fft env f L nside method reality = .ok (ftm, f') ∧
      ∀ t m, 0 ≤ t → t < 4 * nside - 1 → -L ≤ m → m < L → (reality = true → 0 ≤ m) →
        ftm t (L + m) = ∑ p ∈ Finset.Ico 0 (ringSize nside t),
          f (ringStart nside t + p) * cis (-(2 * Real.pi * m * p / ringSize nside t)) := by
  obtain ⟨ftm, f', e, h⟩ := healpix_fft_values hn hL f reality hreal hm hn2 henv
  refine ⟨ftm, f', e, fun t m a b c d g => ?_⟩
  rw [h t (L + m) a b (by omega) (by omega) (fun hr => by have := g hr; omega), add_sub_cancel_left]
  rfl

/-- Multiplied by the forward phase shift, the entry for order `m`, `|m| < L`, is
`∑_p f(pixel) e^{-i m φ(pixel)}`. -/
theorem C09_pixels (L nside : ℤ) (hn : 1 ≤ nside) (hL : 2 * nside ≤ L) (f : ℤ → ℂ)
    (reality : Bool) (hreal : reality = true → ∀ i, (f i).im = 0)
    (method : PyStr) (hm : method ∈ [mNumpy, mJax, mTorch, mCuda])
    (hn2 : method = mJax ∨ method = mTorch → 2 ≤ nside) (env : CudaEnv)
    (henv : method = mCuda → env.Reachable (2 * L * (4 * nside - 1))) :
    ∃ ftm f', healpix_fft env f L nside method reality = .ok (ftm, f') ∧
      ∀ t m, 0 ≤ t → t < 4 * nside - 1 → -L < m → m < L → (reality = true → 0 ≤ m) →
        ftm t (L + m) * ring_phase_shifts_hp L nside true false t (L - 1 + m)
          = ∑ p ∈ Finset.Ico 0 (ringSize nside t),
              f (ringStart nside t + p) * cis (-(m * p2phi_ring t p nside)) := by
  obtain ⟨ftm, f', e, h⟩ := C09_sums L nside hn hL f reality hreal method hm hn2 env henv
  refine ⟨ftm, f', e, fun t m a b c d g => ?_⟩
  rw [h t m a b c.le d g, Finset.sum_mul]
  apply Finset.sum_congr rfl; intro p _
  rw [mul_assoc]
  unfold ring_phase_shifts_hp
  simp only [Bool.false_eq_true, if_false, if_true]
  rw [← cis_add, p2phi_rings_eq hn a b, p2phi_ring_eq a b p]
  congr 2; push_cast; ring

/-- With `reality`, columns below `L` of rings that have exactly `2L` pixels are zero in the
NumPy and JAX versions. -/
theorem C09_reality_lower_half (L nside : ℤ) (hn : 1 ≤ nside) (hL : 2 * nside = L) (f : ℤ → ℂ) :
    ∃ ftm, healpix_fft_numpy f L nside true = .ok ftm ∧
      ∀ t k, nside - 1 ≤ t → t ≤ 3 * nside - 1 → 0 ≤ k → k < L → ftm t k = 0 := by
  obtain ⟨ftm, e, h⟩ := healpix_fft_numpy_ok hn hL.le f true
  refine ⟨ftm, e, fun t k a b c d => ?_⟩
  rw [h t k (by omega) (by omega) c (by omega)]
  unfold rowVal
  rw [if_pos ⟨rfl, by rw [ringSize_mid a b]; omega⟩, if_pos d]

/-- Unknown methods are refused. -/
theorem C09_reject (env : CudaEnv) (f : ℤ → ℂ) (L nside : ℤ) (method : PyStr) (reality : Bool)
    (hm : method ∉ [mNumpy, mJax, mTorch, mCuda]) :
    healpix_fft env f L nside method reality = .error .valueError := by
  unfold healpix_fft
  simp only [List.mem_cons, List.not_mem_nil, or_false, not_or] at hm
  obtain ⟨h1, h2, h3, h4⟩ := hm
  rw [if_neg h1, if_neg (by tauto), if_neg h4]

/-- Analysing then synthesising a ring that has `2L` pixels gives its pixels back, up to the
factor `2L` that the quadrature weights divide out. -/
theorem C09_round_trip (L nside : ℤ) (hn : 1 ≤ nside) (hL : 2 * nside = L) (f : ℤ → ℂ) :
    ∃ ftm, healpix_fft_numpy f L nside false = .ok ftm ∧
      ∃ f' ftm', healpix_ifft_numpy (4 * nside - 1) ftm L nside false = .ok (f', ftm') ∧
        ∀ t p, nside - 1 ≤ t → t ≤ 3 * nside - 1 → 0 ≤ p → p < 2 * L →
          f' (ringStart nside t + p) = 2 * L * f (ringStart nside t + p) := by
  obtain ⟨ftm, e, h⟩ := healpix_fft_numpy_ok hn hL.le f false
  obtain ⟨f', ftm', e', h', _⟩ := healpix_ifft_numpy_ok hn hL.le ftm false
  refine ⟨ftm, e, f', ftm', e', fun t p a b c d => ?_⟩
  have hsz : ringSize nside t = 2 * L := by rw [ringSize_mid a b]; omega
  have hL0 : (0 : ℤ) < 2 * L := by omega
  rw [h' t p (by omega) (by omega) c (by omega)]
  unfold ringVal
  rw [if_neg (by simp)]
  unfold ringSynth
  have e1 : ∀ m ∈ Finset.Ico (-L) L, ftm t (L + m) * cis (2 * Real.pi * m * p / ringSize nside t)
      = fft (2 * L) (fun q => f (ringStart nside t + q)) m * tw (2 * L) (m * p) := by
    intro m hm
    simp only [Finset.mem_Ico] at hm
    rw [h t (L + m) (by omega) (by omega) (by omega) (by omega)]
    unfold rowVal
    rw [if_neg (by simp), ← ringAnal_eq, hsz]
    congr 1
    · congr 1; ring
    · unfold tw; congr 1; push_cast; ring
  rw [Finset.sum_congr rfl e1]
  have hper := sum_Ico_emod hL0 (-L)
    (fun m => fft (2 * L) (fun q => f (ringStart nside t + q)) m * tw (2 * L) (m * p))
  have hsh := sum_Ico_shift 0 (2 * L) (-L)
    (fun m => fft (2 * L) (fun q => f (ringStart nside t + q)) m * tw (2 * L) (m * p))
  rw [show 0 + -L = -L by ring, show 2 * L + -L = L by ring] at hsh
  have e2 : ∀ m ∈ Finset.Ico 0 (2 * L),
      fft (2 * L) (fun q => f (ringStart nside t + q)) (m + -L) * tw (2 * L) ((m + -L) * p)
      = fft (2 * L) (fun q => f (ringStart nside t + q)) ((m + -L) % (2 * L))
        * tw (2 * L) ((m + -L) % (2 * L) * p) := by
    intro m _
    rw [fft_periodic hL0.ne', tw_emod_mul hL0.ne']
  rw [hsh, Finset.sum_congr rfl e2, hper]
  have := ifft_fft hL0 (fun q => f (ringStart nside t + q)) c d
  unfold ifft at this
  rw [div_eq_iff (by exact_mod_cast hL0.ne'), ifft_fwd_eq] at this
  rw [this]; push_cast; ring

/-- A reachable GPU environment for `nside = 2`, `L = 4`. -/
example : (⟨⟨[], []⟩, false, pyRange (Cuda.launched (2 * 4 * (4 * 2 - 1))), fun _ => 1⟩ :
    CudaEnv).Reachable (2 * 4 * (4 * 2 - 1)) :=
  ⟨⟨[], by simp, rfl⟩, List.Perm.refl _⟩

end S2fft
