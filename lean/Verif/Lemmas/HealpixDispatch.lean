import Verif.Lemmas.HealpixCuda
import Verif.Model.HealpixDispatch

/-! # All methods of `healpix_fft` and `healpix_ifft`, ring by ring -/

namespace S2fft
open Spec

/-- Rows of a real signal: the coefficient of `-m` is the conjugate of that of `m`, and the extra
column (order `-L`) is empty. -/
def HermitianRows (L nside : ℤ) (ftm : ℤ → ℤ → ℂ) : Prop :=
  ∀ t, 0 ≤ t → t < 4 * nside - 1 → ftm t 0 = 0 ∧
    ∀ m, 0 ≤ m → m < L → ftm t (L - m) = (starRingEnd ℂ) (ftm t (L + m))

/-- A GPU environment that can occur: the caches are the result of some history of requests, and
every launched thread runs once. `n` is the number of elements of the launch. -/
def CudaEnv.Reachable (env : CudaEnv) (n : ℤ) : Prop :=
  (∃ ops : List Cuda.Op, (∀ op ∈ ops, op.ok) ∧ env.caches = Cuda.runOps ops) ∧
  Cuda.ValidSched n env.sched

theorem ringVal_hermitian {L nside : ℤ} (hL : 0 < L) {ftm : ℤ → ℤ → ℂ} {reality : Bool}
    (h : reality = true → HermitianRows L nside ftm) {t : ℤ} (h0 : 0 ≤ t) (h1 : t < 4 * nside - 1)
    (p : ℤ) : ringVal nside L reality ftm t p = ringSynth nside L ftm t p := by
  unfold ringVal
  split_ifs with hc
  · obtain ⟨ha, hb⟩ := h hc.1 t h0 h1
    rw [irfft_fwd_hermitian hL (ftm t) p hb ha]
    unfold ringSynth
    have e := sum_Ico_shift (-L) L L (fun k => ftm t k * tw (2 * L) ((k - L) * p))
    rw [show -L + L = 0 by ring, show L + L = 2 * L by ring] at e
    rw [e]
    apply Finset.sum_congr rfl; intro m _
    rw [show m + L - L = m by ring, show m + L = L + m by ring, hc.2]
    congr 1
    unfold tw
    congr 1; push_cast; ring
  · rfl

theorem healpix_ifft_values {L nside : ℤ} (hn : 1 ≤ nside) (hL : 2 * nside ≤ L)
    (ftm : ℤ → ℤ → ℂ) (reality : Bool) (h : reality = true → HermitianRows L nside ftm)
    {method : PyStr} (hm : method ∈ [mNumpy, mJax, mTorch, mCuda]) {env : CudaEnv}
    (henv : method = mCuda → env.Reachable (4 * nside - 1)) :
    ∃ f ftm', healpix_ifft env ftm L nside method reality = .ok (f, ftm') ∧
      ∀ t p, 0 ≤ t → t < 4 * nside - 1 → 0 ≤ p → p < ringSize nside t →
        f (ringStart nside t + p) = ringSynth nside L ftm t p := by
  unfold healpix_ifft
  rw [if_neg (by omega)]
  by_cases h1 : method = mNumpy
  · obtain ⟨f, ftm', e, hf, _⟩ := healpix_ifft_numpy_ok hn hL ftm reality
    rw [if_pos h1]
    refine ⟨f, ftm', e, fun t p a b c d => ?_⟩
    rw [hf t p a b c d, ringVal_hermitian (by omega) h a b]
  rw [if_neg h1]
  by_cases h2 : method = mJax ∨ method = mTorch
  · rw [if_pos h2]
    refine ⟨_, _, rfl, fun t p a b c d => ?_⟩
    rw [healpix_ifft_jax_ok hn hL ftm reality t p a b c d, ringVal_hermitian (by omega) h a b]
  rw [if_neg h2]
  have h3 : method = mCuda := by
    simp only [List.mem_cons, List.not_mem_nil, or_false] at hm
    tauto
  rw [if_pos h3]
  obtain ⟨⟨ops, hops, hc⟩, hs⟩ := henv h3
  have hl : Cuda.lowerNorm false "forward".toList = .ok false := by decide
  unfold Cuda.healpix_ifft_cuda
  rw [hl, hc]
  simp only [pure, Except.pure, bind, Except.bind, Except.map]
  refine ⟨_, _, rfl, fun t p a b c d => ?_⟩
  set D := Cuda.mkDescriptor nside L reality false false env.double with hD
  obtain ⟨ok32, ok64⟩ := Cuda.runOps_ok ops hops
  obtain ⟨o32, o64, _⟩ := Cuda.caches_step_ok (op := .build D) ok32 ok64 hn
  obtain ⟨_, _, hg⟩ := Cuda.caches_step_ok (op := .run D) o32 o64 hn
  have := Cuda.healpix_backward_ok (d := D) hn hL rfl hg hs
    (fun i => ftm (i / (2 * L)) (i % (2 * L))) env.out0 a b c d
  refine this.trans ?_
  have hfac : ∀ n, (Cuda.cbFor D false false).factor n = 1 := fun n => rfl
  rw [hfac, mul_one]
  unfold ringSynth
  apply Finset.sum_congr rfl; intro m hm'
  change m ∈ Finset.Ico (-L) L at hm'
  simp only [Finset.mem_Ico] at hm'
  congr 1
  have e1 : (t * (2 * L) + (L + m)) / (2 * L) = t := by
    rw [add_comm, Int.add_mul_ediv_right _ _ (by omega),
      Int.ediv_eq_zero_of_lt (by omega) (by omega), zero_add]
  have e2 : (t * (2 * L) + (L + m)) % (2 * L) = L + m := by
    rw [add_comm, Int.add_mul_emod_self_right, Int.emod_eq_of_lt (by omega) (by omega)]
  change ftm ((t * (2 * L) + (L + m)) / (2 * L)) ((t * (2 * L) + (L + m)) % (2 * L)) = _
  rw [e1, e2]

/-- The CUDA forward transform: the output is the Fourier sums whatever `reality` is, and the
operand buffer is left holding them too. -/
theorem healpix_fft_cuda_values {L nside : ℤ} (hn : 1 ≤ nside) (hL : 2 * nside ≤ L)
    (f : ℤ → ℂ) (reality : Bool) {env : CudaEnv}
    (henv : env.Reachable (2 * L * (4 * nside - 1))) :
    ∃ ftm f', healpix_fft env f L nside mCuda reality = .ok (ftm, f') ∧
      (∀ t k, 0 ≤ t → t < 4 * nside - 1 → 0 ≤ k → k < 2 * L →
        ftm t k = ringAnal nside f t (k - L)) ∧
      (∀ t p, 0 ≤ t → t < 4 * nside - 1 → 0 ≤ p → p < ringSize nside t →
        f' (ringStart nside t + p) = ringAnal nside f t (p - ringSize nside t / 2)) := by
  unfold healpix_fft
  rw [if_neg (by decide), if_neg (by decide), if_pos rfl]
  obtain ⟨⟨ops, hops, hc⟩, hs⟩ := henv
  have hl : Cuda.lowerNorm true "backward".toList = .ok false := by decide
  unfold Cuda.healpix_fft_cuda
  rw [hl, hc]
  simp only [pure, Except.pure, bind, Except.bind]
  set D := Cuda.mkDescriptor nside L reality true false env.double with hD
  obtain ⟨ok32, ok64⟩ := Cuda.runOps_ok ops hops
  obtain ⟨o32, o64, _⟩ := Cuda.caches_step_ok (op := .build D) ok32 ok64 hn
  obtain ⟨_, _, hg⟩ := Cuda.caches_step_ok (op := .run D) o32 o64 hn
  have hfac : ∀ n, (Cuda.cbFor D false true).factor n = 1 := fun n => rfl
  refine ⟨_, _, rfl, fun t k a b c d => ?_, fun t p a b c d => ?_⟩
  · have := Cuda.healpix_forward_ok (d := D) hn hL rfl hg hs f env.out0 a b c d
    refine this.trans ?_
    rw [hfac, mul_one]
    rfl
  · have hpos := ringSize_pos a b
    have := Cuda.good_run (d := D) hn hg true f a b c d
    refine this.trans ?_
    rw [hfac, mul_one]
    change fft (ringSize nside t) _ ((p - ringSize nside t / 2) % ringSize nside t) = _
    rw [fft_periodic hpos.ne']
    exact ringAnal_eq _ _ _ _

theorem healpix_fft_values {L nside : ℤ} (hn : 1 ≤ nside) (hL : 2 * nside ≤ L)
    (f : ℤ → ℂ) (reality : Bool) (h : reality = true → ∀ i, (f i).im = 0)
    {method : PyStr} (hm : method ∈ [mNumpy, mJax, mTorch, mCuda])
    (hn2 : method = mJax ∨ method = mTorch → 2 ≤ nside) {env : CudaEnv}
    (henv : method = mCuda → env.Reachable (2 * L * (4 * nside - 1))) :
    ∃ ftm f', healpix_fft env f L nside method reality = .ok (ftm, f') ∧
      ∀ t k, 0 ≤ t → t < 4 * nside - 1 → 0 ≤ k → k < 2 * L → (reality = true → L ≤ k) →
        ftm t k = ringAnal nside f t (k - L) := by
  have hrow : ∀ t k, (reality = true → L ≤ k) →
      rowVal nside L reality f t k = ringAnal nside f t (k - L) := by
    intro t k hk
    unfold rowVal
    split_ifs with h1 h2
    · have := hk h1.1; omega
    · congr 1; funext i
      apply Complex.ext
      · simp
      · simp [h h1.1 i]
    · rfl
  unfold healpix_fft
  by_cases h1 : method = mNumpy
  · obtain ⟨ftm, e, hf⟩ := healpix_fft_numpy_ok hn hL f reality
    rw [if_pos h1, e]
    refine ⟨ftm, f, rfl, fun t k a b c d e => ?_⟩
    rw [hf t k a b c d, hrow t k e]
  rw [if_neg h1]
  by_cases h2 : method = mJax ∨ method = mTorch
  · obtain ⟨ftm, e, hf⟩ := healpix_fft_jax_ok (hn2 h2) hL f reality
    rw [if_pos h2, e]
    refine ⟨_, _, rfl, fun t k a b c d e => ?_⟩
    rw [hf t k a b c d, hrow t k e]
  rw [if_neg h2]
  have h3 : method = mCuda := by
    simp only [List.mem_cons, List.not_mem_nil, or_false] at hm
    tauto
  obtain ⟨ftm, f', e, hv, _⟩ := healpix_fft_cuda_values hn hL f reality (henv h3)
  unfold healpix_fft at e
  rw [if_neg (by decide), if_neg (by decide)] at e
  rw [h3]
  exact ⟨ftm, f', e, fun t k a b c d _ => hv t k a b c d⟩

end S2fft
