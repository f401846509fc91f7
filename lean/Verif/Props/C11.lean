import Verif.Lemmas.HealpixDispatch

/-! # C11: transforms and their input arrays -/

namespace S2fft
open Spec

/-- The property fails for the default (NumPy) `healpix_ifft`: whenever some ring has fewer than
`2L` pixels there are coefficients for which the call changes the caller's array, and a second call
on the same array returns a different map. -/
theorem C11_numpy_ifft_modifies_input (L nside : ℤ) (hn : 1 ≤ nside) (hL : 2 * nside ≤ L)
    (hlt : 2 < L) (env : CudaEnv) (reality : Bool) :
    ∃ ftm f₁ ftm₁ f₂ ftm₂,
      healpix_ifft env ftm L nside mNumpy reality = .ok (f₁, ftm₁) ∧
      healpix_ifft env ftm₁ L nside mNumpy reality = .ok (f₂, ftm₂) ∧
      (∃ k, 0 ≤ k ∧ k < 2 * L ∧ ftm₁ 0 k ≠ ftm 0 k) ∧ f₁ 0 = 1 ∧ f₂ 0 = 2 := by
  have hsz : ringSize nside 0 = 4 := by unfold ringSize; omega
  have hst : ringStart nside 0 = 0 := by simp [ringStart]
  set ftm : ℤ → ℤ → ℂ := fun t k => if t = 0 ∧ k = 0 then 1 else 0 with hftm
  obtain ⟨f₁, ftm₁, e₁, h₁, m₁⟩ := healpix_ifft_numpy_ok hn hL ftm reality
  obtain ⟨f₂, ftm₂, e₂, h₂, _⟩ := healpix_ifft_numpy_ok hn hL ftm₁ reality
  have hd : ∀ (g : ℤ → ℤ → ℂ), healpix_ifft env g L nside mNumpy reality
      = healpix_ifft_numpy (4 * nside - 1) g L nside reality := by
    intro g; unfold healpix_ifft; rw [if_neg (by omega), if_pos rfl]
  have hfold : ∀ i, foldSum (ftm 0) 4 L i = if (-(L - 2)) % 4 = i then 1 else 0 := by
    intro i
    unfold foldSum
    rw [Finset.sum_filter, Finset.sum_eq_single 0]
    · rw [show (0 : ℤ) - (L - 4 / 2) = -(L - 2) by omega]
      simp [hftm]
    · intro k _ hk; simp [hftm, hk]
    · intro h; exfalso; apply h; simp; omega
  have hm : ∀ k, ftm₁ 0 k = (if k = 0 then 1 else 0)
      + (if k = (L - 2) + (-(L - 2)) % 4 then 1 else 0) := by
    intro k
    have := Int.emod_nonneg (-(L - 2)) (show (4 : ℤ) ≠ 0 by norm_num)
    have := Int.emod_lt_of_pos (-(L - 2)) (show (0 : ℤ) < 4 by norm_num)
    rw [m₁ 0 k le_rfl (by omega), hsz, show L - 4 / 2 = L - 2 by omega]
    by_cases hc : L - 2 ≤ k ∧ k < L - 2 + 4
    · rw [if_pos ⟨by omega, hc.1, hc.2⟩, hfold, if_neg (show ¬ k = 0 by omega), zero_add]
      congr 1
      apply propext; constructor <;> intro h <;> omega
    · rw [if_neg (by tauto), if_neg (show ¬ k = L - 2 + (-(L - 2)) % 4 by omega), add_zero]
      simp [hftm]
  have hval : ∀ (g : ℤ → ℤ → ℂ), ringVal nside L reality g 0 0 = ∑ k ∈ Finset.Ico 0 (2 * L), g 0 k := by
    intro g
    unfold ringVal
    rw [if_neg (by rw [hsz]; omega)]
    unfold ringSynth
    have := sum_Ico_shift (-L) L L (fun k => g 0 k)
    rw [show -L + L = 0 by ring, show L + L = 2 * L by ring] at this
    rw [this]
    apply Finset.sum_congr rfl; intro m _
    simp [cis, add_comm]
  have hr0 := Int.emod_nonneg (-(L - 2)) (show (4 : ℤ) ≠ 0 by norm_num)
  have hr1 := Int.emod_lt_of_pos (-(L - 2)) (show (0 : ℤ) < 4 by norm_num)
  refine ⟨ftm, f₁, ftm₁, f₂, ftm₂, by rw [hd, e₁], by rw [hd, e₂],
    ⟨(L - 2) + (-(L - 2)) % 4, by omega, by omega, ?_⟩, ?_, ?_⟩
  · rw [hm, if_pos rfl, if_neg (by omega)]
    simp only [hftm]
    rw [if_neg (by omega)]; norm_num
  · have := h₁ 0 0 le_rfl (by omega) le_rfl (by omega)
    rw [hst, add_zero, hval] at this
    rw [this, Finset.sum_eq_single 0]
    · simp [hftm]
    · intro k _ hk; simp [hftm, hk]
    · intro h; exfalso; apply h; simp; omega
  · have := h₂ 0 0 le_rfl (by omega) le_rfl (by omega)
    rw [hst, add_zero, hval] at this
    rw [this]
    simp only [hm, Finset.sum_add_distrib, Finset.sum_ite_eq', Finset.mem_Ico]
    rw [if_pos (by omega), if_pos (by omega)]; norm_num

/-- The CUDA forward transform overwrites the operand buffer with its ring transforms: after a call
on the indicator of pixel 0, pixel 1 of that buffer holds 1. -/
theorem C11_cuda_fft_modifies_input (L nside : ℤ) (hn : 1 ≤ nside) (hL : 2 * nside ≤ L)
    (env : CudaEnv) (henv : env.Reachable (2 * L * (4 * nside - 1))) (reality : Bool) :
    ∃ (f : ℤ → ℂ) (ftm : ℤ → ℤ → ℂ) (f' : ℤ → ℂ),
      healpix_fft env f L nside mCuda reality = .ok (ftm, f') ∧ f 1 = 0 ∧ f' 1 = 1 := by
  have hsz : ringSize nside 0 = 4 := by unfold ringSize; omega
  have hst : ringStart nside 0 = 0 := by simp [ringStart]
  obtain ⟨ftm, f', e, _, h⟩ := healpix_fft_cuda_values hn hL (fun i => if i = 0 then 1 else 0)
    reality henv
  refine ⟨fun i => if i = 0 then 1 else 0, ftm, f', e, by simp, ?_⟩
  have := h 0 1 le_rfl (by omega) (by norm_num) (by omega)
  rw [hst, zero_add] at this
  rw [this]
  unfold ringAnal
  rw [hst, Finset.sum_eq_single 0]
  · simp [cis]
  · intro k _ hk; simp [hk]
  · intro h; exfalso; apply h; rw [hsz]; decide

/-- What does hold: the other paths leave their argument alone, and the NumPy inverse does so
when every row is zero outside the orders its ring can represent. -/
theorem C11_input_kept_partial (L nside : ℤ) (hn : 1 ≤ nside) (hL : 2 * nside ≤ L)
    (reality : Bool) (env : CudaEnv) :
    (∀ (f : ℤ → ℂ) method r, method ≠ mCuda →
      healpix_fft env f L nside method reality = .ok r → r.2 = f) ∧
    (∀ (ftm : ℤ → ℤ → ℂ) method r, method ≠ mNumpy →
      healpix_ifft env ftm L nside method reality = .ok r →
      ∀ t k, 0 ≤ k → k < 2 * L → r.2 t k = ftm t k) ∧
    (∀ (ftm : ℤ → ℤ → ℂ) r,
      (∀ t k, 0 ≤ t → t < 4 * nside - 1 → 0 ≤ k → k < 2 * L →
        (k < L - ringSize nside t / 2 ∨ L + ringSize nside t / 2 ≤ k) → ftm t k = 0) →
      healpix_ifft env ftm L nside mNumpy reality = .ok r →
      ∀ t k, 0 ≤ t → t < 4 * nside - 1 → 0 ≤ k → k < 2 * L → r.2 t k = ftm t k) := by
  refine ⟨?_, ?_, ?_⟩
  · intro f method r hm h
    unfold healpix_fft at h
    split_ifs at h
    · cases hx : healpix_fft_numpy f L nside reality with
      | error e => rw [hx] at h; cases h
      | ok v => rw [hx] at h; cases h; rfl
    · cases hx : healpix_fft_jax f L nside reality with
      | error e => rw [hx] at h; cases h
      | ok v => rw [hx] at h; cases h; rfl
  · intro ftm method r hm h t k hk0 hk1
    unfold healpix_ifft at h
    rw [if_neg (by omega), if_neg hm] at h
    split_ifs at h
    · cases h; rfl
    · unfold Cuda.healpix_ifft_cuda at h
      have hl : Cuda.lowerNorm false "forward".toList = .ok false := by decide
      rw [hl] at h
      simp only [pure, Except.pure, bind, Except.bind, Except.map] at h
      cases h
      change ftm ((t * (2 * L) + k) / (2 * L)) ((t * (2 * L) + k) % (2 * L)) = _
      rw [add_comm, Int.add_mul_ediv_right _ _ (by omega), Int.ediv_eq_zero_of_lt hk0 hk1,
        zero_add, Int.add_mul_emod_self_right, Int.emod_eq_of_lt hk0 hk1]
  · intro ftm r hz h t k ht0 ht1 hk0 hk1
    unfold healpix_ifft at h
    rw [if_neg (by omega), if_pos rfl] at h
    obtain ⟨f, ftm', e, _, hm⟩ := healpix_ifft_numpy_ok hn hL ftm reality
    rw [e] at h; cases h
    have hpos := ringSize_pos ht0 ht1
    have heven := ringSize_even nside t
    have hle := ringSize_le nside t
    change ftm' t k = _
    rw [hm t k ht0 ht1]
    split_ifs with hc
    · unfold foldSum
      rw [Finset.sum_filter, Finset.sum_eq_single k]
      · rw [if_pos (Int.emod_eq_of_lt (by omega) (by omega))]
      · intro j hj hne
        simp only [Finset.mem_Ico] at hj
        by_cases hjw : j < L - ringSize nside t / 2 ∨ L + ringSize nside t / 2 ≤ j
        · rw [hz t j ht0 ht1 hj.1 hj.2 hjw, ite_self]
        · rw [Int.emod_eq_of_lt (by omega) (by omega), if_neg (by omega)]
      · intro h'; exfalso; apply h'; simp; omega
    · rfl

/-- The hypotheses of the last part are met by a non-zero array (`nside = 2`, `L = 4`: order 0 in
every ring). -/
example : ∃ ftm : ℤ → ℤ → ℂ, ftm 0 4 = 1 ∧
    ∀ t k, 0 ≤ t → t < 4 * 2 - 1 → 0 ≤ k → k < 2 * 4 →
      (k < 4 - ringSize 2 t / 2 ∨ 4 + ringSize 2 t / 2 ≤ k) → ftm t k = 0 := by
  refine ⟨fun _ k => if k = 4 then 1 else 0, by simp, ?_⟩
  intro t k h0 h1 _ _ h
  have := ringSize_pos (n := 2) h0 (by omega)
  have := ringSize_even 2 t
  exact if_neg (by omega)

end S2fft
