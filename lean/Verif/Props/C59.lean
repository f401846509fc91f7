import Verif.Lemmas.PrecomputeWignerDoubleInverse
import Verif.Lemmas.PrecomputeDoubleForward

/-! # C59: the Wigner transforms with precomputed kernels are stable in double precision -/

namespace S2fft
open Spec

/-- The kernel of the inverse transform: every entry is that of the exact kernel up to
`(2l+1)/(8π²) L^(3/2) / 2⁴¹`. With `reality` only the directions `n ≥ 0` are stored. -/
theorem C59_kernel (F : FftLib) (lg nodes : ℤ → ℤ → ℝ) (logL : ℝ) (w : ℤ → ℝ) (σ : Scheme)
    (hσ : σ = .mw ∨ σ = .mwss ∨ σ = .dh) (L N : ℤ) (hL1 : L ≤ 2 ^ 26) (h1 : 1 ≤ N) (hN : N ≤ L)
    (reality : Bool) (mode : PyStr) (hm : ModeOk σ L mode) :
    ∃ K, wignerKernelF F lg logL w L N reality σ.name false mode
        = .ok ⟨if reality then N else 2 * N - 1, σ.rings L 0, L, 2 * L - 1, K⟩ ∧
      ∀ n t el m, 0 ≤ t → t < σ.rings L 0 → 0 ≤ el → el < L → |m| < L → |n| < N →
        (reality = true → 0 ≤ n) →
        ‖K (if reality then n else n + N - 1) t el (m + L - 1)
            - (((2 * (el : ℝ) + 1) / (8 * Real.pi ^ 2) * wignerd el m n (σ.theta nodes L 0 t) : ℝ) : ℂ)‖
          ≤ (2 * (el : ℝ) + 1) / (8 * Real.pi ^ 2) * (L * √L / 2 ^ 41) := by
  have hL : 1 ≤ L := h1.trans hN
  obtain ⟨s1, s2, s3⟩ := sizeE hL hL1
  have hL' : (1 : ℝ) ≤ L := by exact_mod_cast hL
  obtain ⟨K, e, hK⟩ := wignerKernelF_inverse F lg nodes logL w hσ hL hL1 h1 hN (covers_sqrt hL hL1)
    (le_trans (div_le_div_of_nonneg_right hL' (by norm_num)) s3) (by linarith) reality hm
  refine ⟨K, ?_, fun n t el m t0 t1 e0 e1 hm hn hr => ?_⟩
  · rw [e]
    cases reality
    · rfl
    · rfl
  · have hn' := abs_lt.1 hn
    have h2 := hK (n - nFirst N reality) t el m (by cases reality <;> simp [nFirst_true, nFirst_false] at hr ⊢ <;> omega)
      (by have := nStart_eq N reality; rw [nDim_eq]; omega) t0 t1 e0 e1 hm
    rw [show nFirst N reality + (n - nFirst N reality) = n by ring,
      show n - nFirst N reality = if reality then n else n + N - 1 by
        cases reality <;> simp [nFirst_true, nFirst_false]; ring] at h2
    refine h2.trans (mul_le_mul_of_nonneg_left ?_ (degreeWeight_nonneg e0))
    rw [show (L : ℝ) * √L / 2 ^ 41 = 8 * (L * √L / 2 ^ 44) by ring]
    linarith

/-- The inverse transform: every sample is that of the expansion up to `L^(3/2) / 2⁴¹` times the size
of the coefficients. -/
theorem C59_inverse (F : FftLib) (lg nodes : ℤ → ℤ → ℝ) (logL : ℝ) (w : ℤ → ℝ) (σ : Scheme)
    (hσ : σ = .mw ∨ σ = .mwss ∨ σ = .dh) (L N : ℤ) (hL1 : L ≤ 2 ^ 26) (h1 : 1 ≤ N) (hN : N ≤ L)
    (reality : Bool) (mode : PyStr) (hm : ModeOk σ L mode) (flmn : ℤ → ℤ → ℤ → ℂ)
    (hre : RealPlane flmn L N reality) :
    ∃ K f, wignerKernelF F lg logL w L N reality σ.name false mode = .ok K ∧
      precomputeWignerInverseF F (.d3 (2 * N - 1) L (2 * L - 1) flmn) K L N σ.name reality = .ok f ∧
      f.shape = (2 * N - 1) :: σ.shape L 0 ∧ (reality = true → ∀ g t p, (f.get3 g t p).im = 0) ∧
      ∀ g t p, 0 ≤ g → g < 2 * N - 1 → σ.Has L 0 t p → ‖f.get3 g t p
        - wignerSum 0 L N (wignerCoeffs flmn L N reality) (σ.phi L 0 t p) (σ.theta nodes L 0 t)
            (gammaAt N g)‖
        ≤ L * √L / 2 ^ 41 * so3CoeffSize L N reality flmn + 1 / 2 ^ 900 := by
  have hL : 1 ≤ L := h1.trans hN
  have hL' : (1 : ℝ) ≤ L := by exact_mod_cast hL
  have hv : σ.Valid L 0 := ⟨hL, fun h => by subst h; simp at hσ⟩
  have hh : σ ≠ .healpix := by rintro rfl; simp at hσ
  obtain ⟨s1, s2, s3⟩ := sizeE hL hL1
  obtain ⟨K, e, hK⟩ := wignerKernelF_inverse F lg nodes logL w hσ hL hL1 h1 hN (covers_sqrt hL hL1)
    (le_trans (div_le_div_of_nonneg_right hL' (by norm_num)) s3) (by linarith) reality hm
  obtain ⟨f, e1, e2, e3, hf⟩ := precomputeWignerInverseF_near F hh hv hL1 h1 hN flmn hre hK
    (by linarith)
  refine ⟨_, f, e, e1, e2, e3, fun g t p g0 g1 hp => (hf g t p g0 g1 hp).trans (add_le_add ?_ le_rfl)⟩
  refine mul_le_mul_of_nonneg_right ?_ ?_
  · rw [show (L : ℝ) * √L / 2 ^ 41 = 8 * (L * √L / 2 ^ 44) by ring]
    have : (L : ℝ) / 2 ^ 46 = 1 / 4 * (L / 2 ^ 44) := by ring
    linarith
  · exact Finset.sum_nonneg fun n _ => Finset.sum_nonneg fun l hl => Finset.sum_nonneg fun m _ =>
      mul_nonneg (degreeWeight_nonneg (Finset.mem_Ico.1 hl).1) (norm_nonneg _)

/-- The kernel of a real signal with 128 degrees, four directions and the mode chosen by the code. -/
example := C59_kernel exactFftLib (fun _ _ => 0) (fun _ _ => 0) 5 (fun _ => 0) .mwss (by simp) 128 4
  (by norm_num) (by norm_num) (by norm_num) true mdAuto
  ⟨by simp, fun h => absurd h (by decide), fun _ h => by simp at h⟩

/-- The inverse transform of a complex signal in the mode "fft". -/
example := C59_inverse exactFftLib (fun _ _ => 0) (fun _ _ => 0) 5 (fun _ => 0) .mw (by simp) 128 4
  (by norm_num) (by norm_num) (by norm_num) false mdFft ⟨by simp, by simp, fun h => absurd h (by decide)⟩
  (fun n l m => n + l + m * Complex.I) (by simp [RealPlane])

end S2fft
