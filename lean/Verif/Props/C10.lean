import Verif.Lemmas.HealpixDispatch

/-! # C10: the HEALPix FFT backends agree -/

namespace S2fft
open Spec

/-- NumPy and JAX `healpix_fft` return the same array, with and without `reality`, for
`nside ≥ 2`. -/
theorem C10_fft_numpy_jax (L nside : ℤ) (hn : 2 ≤ nside) (hL : 2 * nside ≤ L) (f : ℤ → ℂ)
    (reality : Bool) :
    ∃ a b, healpix_fft_numpy f L nside reality = .ok a ∧
      healpix_fft_jax f L nside reality = .ok b ∧
      ∀ t k, 0 ≤ t → t < 4 * nside - 1 → 0 ≤ k → k < 2 * L → a t k = b t k := by
  obtain ⟨a, ea, ha⟩ := healpix_fft_numpy_ok (by omega) hL f reality
  obtain ⟨b, eb, hb⟩ := healpix_fft_jax_ok hn hL f reality
  exact ⟨a, b, ea, eb, fun t k h0 h1 h2 h3 => by rw [ha t k h0 h1 h2 h3, hb t k h0 h1 h2 h3]⟩

/-- NumPy and JAX `healpix_ifft` return the same pixels, with and without `reality`. -/
theorem C10_ifft_numpy_jax (L nside : ℤ) (hn : 1 ≤ nside) (hL : 2 * nside ≤ L) (ftm : ℤ → ℤ → ℂ)
    (reality : Bool) :
    ∃ a ftm', healpix_ifft_numpy (4 * nside - 1) ftm L nside reality = .ok (a, ftm') ∧
      ∀ t p, 0 ≤ t → t < 4 * nside - 1 → 0 ≤ p → p < ringSize nside t →
        a (ringStart nside t + p) = healpix_ifft_jax ftm L nside reality (ringStart nside t + p) := by
  obtain ⟨a, ftm', e, ha, _⟩ := healpix_ifft_numpy_ok hn hL ftm reality
  exact ⟨a, ftm', e, fun t p h0 h1 h2 h3 => by
    rw [ha t p h0 h1 h2 h3, healpix_ifft_jax_ok hn hL ftm reality t p h0 h1 h2 h3]⟩

/-- The two folding functions agree on rings (even lengths up to `2L`). -/
theorem C10_folding (nphi L : ℤ) (hn : 0 < nphi) (he : nphi % 2 = 0) (h2 : nphi ≤ 2 * L)
    (fm : ℤ → ℂ) :
    ∃ s r, spectral_folding fm nphi L = .ok (s, r) ∧
      ∀ i, 0 ≤ i → i < nphi → s i = spectral_folding_jax fm nphi L i := by
  obtain ⟨s, r, e, h, _⟩ := spectral_folding_ok hn h2 fm
  exact ⟨s, r, e, fun i a b => by rw [h i a b, spectral_folding_jax_eq hn he h2 fm a b]⟩

/-- The two periodic extensions agree for every length up to `2L`. -/
theorem C10_extension (nphi L : ℤ) (hn : 0 < nphi) (h2 : nphi ≤ 2 * L) (fm : ℤ → ℂ) :
    ∃ g, spectral_periodic_extension fm nphi L = .ok g ∧
      ∀ k, 0 ≤ k → k < 2 * L → g k = spectral_periodic_extension_jax nphi fm L k := by
  obtain ⟨g, e, h⟩ := spectral_periodic_extension_ok hn h2 fm
  exact ⟨g, e, fun k a b => by rw [h k a b, spectral_periodic_extension_jax_eq hn h2 fm a b]⟩

/-- The CUDA forward transform returns the NumPy array, whatever the history of the plan caches,
the order of the threads and the contents of the output buffer (`reality = False`). -/
theorem C10_fft_cuda (L nside : ℤ) (hn : 1 ≤ nside) (hL : 2 * nside ≤ L) (f : ℤ → ℂ)
    (env : CudaEnv) (henv : env.Reachable (2 * L * (4 * nside - 1))) :
    ∃ a b f', healpix_fft_numpy f L nside false = .ok a ∧
      healpix_fft env f L nside mCuda false = .ok (b, f') ∧
      ∀ t k, 0 ≤ t → t < 4 * nside - 1 → 0 ≤ k → k < 2 * L → a t k = b t k := by
  obtain ⟨a, ea, ha⟩ := healpix_fft_numpy_ok hn hL f false
  obtain ⟨b, f', eb, hb⟩ := healpix_fft_values hn hL f false (by simp) (method := mCuda)
    (by simp) (by rintro (h | h) <;> exact absurd h (by decide)) (fun _ => henv)
  refine ⟨a, b, f', ea, eb, fun t k h0 h1 h2 h3 => ?_⟩
  rw [ha t k h0 h1 h2 h3, hb t k h0 h1 h2 h3 (by simp)]
  unfold rowVal; rw [if_neg (by simp)]

/-- The CUDA inverse transform returns the NumPy pixels (`reality = False`). -/
theorem C10_ifft_cuda (L nside : ℤ) (hn : 1 ≤ nside) (hL : 2 * nside ≤ L) (ftm : ℤ → ℤ → ℂ)
    (env : CudaEnv) (henv : env.Reachable (4 * nside - 1)) :
    ∃ a ftm' b ftm'', healpix_ifft_numpy (4 * nside - 1) ftm L nside false = .ok (a, ftm') ∧
      healpix_ifft env ftm L nside mCuda false = .ok (b, ftm'') ∧
      ∀ t p, 0 ≤ t → t < 4 * nside - 1 → 0 ≤ p → p < ringSize nside t →
        a (ringStart nside t + p) = b (ringStart nside t + p) := by
  obtain ⟨a, ftm', ea, ha, _⟩ := healpix_ifft_numpy_ok hn hL ftm false
  obtain ⟨b, ftm'', eb, hb⟩ := healpix_ifft_values hn hL ftm false (by simp) (method := mCuda)
    (by simp) (fun _ => henv)
  refine ⟨a, ftm', b, ftm'', ea, eb, fun t p h0 h1 h2 h3 => ?_⟩
  rw [ha t p h0 h1 h2 h3, hb t p h0 h1 h2 h3]
  unfold ringVal; rw [if_neg (by simp)]

/-- CUDA kernel geometry: ring size and offset are those of the HEALPix layout. -/
theorem C10_cuda_geometry (nside t : ℤ) (hn : 1 ≤ nside) (h0 : 0 ≤ t) (h1 : t < 4 * nside - 1) :
    Cuda.computeNphi nside t = (ringSize nside t, ringStart nside t) :=
  Cuda.computeNphi_eq hn h0 h1

/-- Not for every `nside`: with `nside = 1` the JAX `healpix_fft` raises where NumPy returns. -/
theorem C10_jax_nside_one (L : ℤ) (hL : 2 ≤ L) (f : ℤ → ℂ) (reality : Bool) :
    healpix_fft_jax f L 1 reality = .error .valueError ∧
    ∃ a, healpix_fft_numpy f L 1 reality = .ok a := by
  constructor
  · unfold healpix_fft_jax
    rw [forRange_of_le (by norm_num)]
    simp
  · obtain ⟨a, e, _⟩ := healpix_fft_numpy_ok (nside := 1) (L := L) le_rfl (by omega) f reality
    exact ⟨a, e⟩

/-- With `reality`, CUDA fills the columns of negative orders that NumPy leaves zero. -/
theorem C10_cuda_reality_differs (env : CudaEnv)
    (henv : env.Reachable (2 * 2 * (4 * 1 - 1))) :
    ∃ (f : ℤ → ℂ) (a b : ℤ → ℤ → ℂ) (f' : ℤ → ℂ), (∀ i, (f i).im = 0) ∧
      healpix_fft_numpy f 2 1 true = .ok a ∧ healpix_fft env f 2 1 mCuda true = .ok (b, f') ∧
      a 0 1 = 0 ∧ b 0 1 = 1 := by
  obtain ⟨a, ea, ha⟩ := healpix_fft_numpy_ok (nside := 1) (L := 2) le_rfl (by norm_num)
    (fun i => if i = 0 then 1 else 0) true
  obtain ⟨b, f', eb, hb, _⟩ := healpix_fft_cuda_values (nside := 1) (L := 2) le_rfl (by norm_num)
    (fun i => if i = 0 then 1 else 0) true henv
  refine ⟨fun i => if i = 0 then 1 else 0, a, b, f', ?_, ea, eb, ?_, ?_⟩
  · intro i; dsimp only; split_ifs <;> simp
  · rw [ha 0 1 le_rfl (by norm_num) (by norm_num) (by norm_num)]
    unfold rowVal
    rw [if_pos ⟨rfl, by decide⟩, if_pos (by norm_num)]
  · rw [hb 0 1 le_rfl (by norm_num) (by norm_num) (by norm_num)]
    unfold ringAnal
    rw [Finset.sum_eq_single 0]
    · simp [ringStart, cis]
    · intro p _ hp
      simp [ringStart, hp]
    · intro h; exfalso; apply h; decide

end S2fft
