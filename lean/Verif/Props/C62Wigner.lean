import Verif.Props.C62
import Verif.Props.C59Forward

/-! # C62: the JAX Wigner transforms with precomputed kernels are stable in double precision -/

namespace S2fft
open Spec

/-- The kernel of the inverse transform: every entry is that of the exact kernel up to
`(2l+1)/(8π²) L^(3/2) / 2⁴¹`. With `reality` only the directions `n ≥ 0` are stored. -/
theorem C62_wigner_kernel (F : XlaLib) (lg nodes : ℤ → ℤ → ℝ) (logL : ℝ) (w : ℤ → ℝ) (σ : Scheme)
    (hσ : σ = .mw ∨ σ = .mwss ∨ σ = .dh) (L N : ℤ) (hL1 : L ≤ 2 ^ 26) (h1 : 1 ≤ N) (hN : N ≤ L)
    (reality : Bool) (mode : PyStr) (hm : ModeOk σ L mode) :
    ∃ K, wignerKernelJ F lg logL w L N reality σ.name false mode
        = .ok ⟨if reality then N else 2 * N - 1, σ.rings L 0, L, 2 * L - 1, K⟩ ∧
      ∀ n t el m, 0 ≤ t → t < σ.rings L 0 → 0 ≤ el → el < L → |m| < L → |n| < N →
        (reality = true → 0 ≤ n) →
        ‖K (if reality then n else n + N - 1) t el (m + L - 1)
            - (((2 * (el : ℝ) + 1) / (8 * Real.pi ^ 2) * wignerd el m n (σ.theta nodes L 0 t) : ℝ) : ℂ)‖
          ≤ (2 * (el : ℝ) + 1) / (8 * Real.pi ^ 2) * (L * √L / 2 ^ 41) := by
  have hL : 1 ≤ L := h1.trans hN
  obtain ⟨s1, s2, s3⟩ := sizeE hL hL1
  have hL' : (1 : ℝ) ≤ L := by exact_mod_cast hL
  obtain ⟨K, e, hK⟩ := wignerKernelJ_inverse F lg nodes logL w hσ hL hL1 h1 hN (covers_sqrt hL hL1)
    (le_trans (div_le_div_of_nonneg_right hL' (by norm_num)) s3) (by linarith) reality hm
  refine ⟨K, ?_, fun n t el m t0 t1 e0 e1 hm hn hr => ?_⟩
  · rw [e]
    cases reality
    · rfl
    · rfl
  · have hn' := abs_lt.1 hn
    have h2 := hK (n - nFirst N reality) t el m (by cases reality <;> simp [nFirst_true, nFirst_false] at hr ⊢ <;> omega)
      (by have := nStart_eq N reality; rw [nDim_eq]; omega) t0 t1 e0 e1 hm
    rw [show nFirst N reality + (n - nFirst N reality) = n by ring,
      show n - nFirst N reality = if reality then n else n + N - 1 by
        cases reality <;> simp [nFirst_true, nFirst_false]; ring] at h2
    refine h2.trans (mul_le_mul_of_nonneg_left ?_ (degreeWeight_nonneg e0))
    rw [show (L : ℝ) * √L / 2 ^ 41 = 8 * (L * √L / 2 ^ 44) by ring]
    linarith

/-- The inverse transform: every sample is that of the expansion up to `L^(3/2) / 2⁴¹` times the size
of the coefficients. -/
theorem C62_wigner_inverse (F : XlaLib) (lg nodes : ℤ → ℤ → ℝ) (logL : ℝ) (w : ℤ → ℝ) (σ : Scheme)
    (hσ : σ = .mw ∨ σ = .mwss ∨ σ = .dh) (L N : ℤ) (hL1 : L ≤ 2 ^ 26) (h1 : 1 ≤ N) (hN : N ≤ L)
    (reality : Bool) (mode : PyStr) (hm : ModeOk σ L mode) (flmn : ℤ → ℤ → ℤ → ℂ)
    (hre : RealPlane flmn L N reality) :
    ∃ K f, wignerKernelJ F lg logL w L N reality σ.name false mode = .ok K ∧
      precomputeWignerInverseF (jaxFft F.toFftLib) (.d3 (2 * N - 1) L (2 * L - 1) flmn) K L N σ.name reality = .ok f ∧
      f.shape = (2 * N - 1) :: σ.shape L 0 ∧ (reality = true → ∀ g t p, (f.get3 g t p).im = 0) ∧
      ∀ g t p, 0 ≤ g → g < 2 * N - 1 → σ.Has L 0 t p → ‖f.get3 g t p
        - wignerSum 0 L N (wignerCoeffs flmn L N reality) (σ.phi L 0 t p) (σ.theta nodes L 0 t)
            (gammaAt N g)‖
        ≤ L * √L / 2 ^ 41 * so3CoeffSize L N reality flmn + 1 / 2 ^ 900 := by
  have hL : 1 ≤ L := h1.trans hN
  have hL' : (1 : ℝ) ≤ L := by exact_mod_cast hL
  have hv : σ.Valid L 0 := ⟨hL, fun h => by subst h; simp at hσ⟩
  have hh : σ ≠ .healpix := by rintro rfl; simp at hσ
  obtain ⟨s1, s2, s3⟩ := sizeE hL hL1
  obtain ⟨K, e, hK⟩ := wignerKernelJ_inverse F lg nodes logL w hσ hL hL1 h1 hN (covers_sqrt hL hL1)
    (le_trans (div_le_div_of_nonneg_right hL' (by norm_num)) s3) (by linarith) reality hm
  obtain ⟨f, e1, e2, e3, hf⟩ := precomputeWignerInverseF_near (jaxFft F.toFftLib) hh hv hL1 h1 hN flmn hre hK
    (by linarith)
  refine ⟨_, f, e, e1, e2, e3, fun g t p g0 g1 hp => (hf g t p g0 g1 hp).trans (add_le_add ?_ le_rfl)⟩
  refine mul_le_mul_of_nonneg_right ?_ ?_
  · rw [show (L : ℝ) * √L / 2 ^ 41 = 8 * (L * √L / 2 ^ 44) by ring]
    have : (L : ℝ) / 2 ^ 46 = 1 / 4 * (L / 2 ^ 44) := by ring
    linarith
  · exact Finset.sum_nonneg fun n _ => Finset.sum_nonneg fun l hl => Finset.sum_nonneg fun m _ =>
      mul_nonneg (degreeWeight_nonneg (Finset.mem_Ico.1 hl).1) (norm_nonneg _)

/-- The forward transform from the Driscoll–Healy grid, of samples that are those of an expansion up to
`η` and at most `M` in size: every coefficient is that of the expansion up to
`8π² (M L^(3/2) / 2⁴⁰ + η)`; `8π²` is the volume of the rotation group. -/
theorem C62_wigner_forward_dh (F : XlaLib) (fuse : ℤ → ℤ → Bool) (fold : Bool) (lg nodes : ℤ → ℤ → ℝ) (logL : ℝ) (L N : ℤ) (hL1 : L ≤ 2 ^ 26)
    (h1 : 1 ≤ N) (hN : N ≤ L) (reality : Bool) (mode : PyStr) (hm : ModeOk .dh L mode)
    (c : ℤ → ℤ → ℤ → ℂ) (f : Nd ℂ) (M η : ℝ) (hsh : f.shape = (2 * N - 1) :: Scheme.dh.shape L 0)
    (hM : ∀ g t p, 0 ≤ g → g < 2 * N - 1 → Scheme.dh.Has L 0 t p → ‖f.get3 g t p‖ ≤ M)
    (hf : ∀ g t p, 0 ≤ g → g < 2 * N - 1 → Scheme.dh.Has L 0 t p → ‖f.get3 g t p
      - wignerSum 0 L N c (Scheme.dh.phi L 0 t p) (Scheme.dh.theta nodes L 0 t) (gammaAt N g)‖ ≤ η)
    (hre : reality = true → RealWigner c 0 L) :
    ∃ T K out, thetasF F.toDoubleLib lg (some L) sDH none = .ok (2 * L, T) ∧
      wignerKernelJ F lg logL (quadWeightsDhJ F fuse fold L T) L N reality sDH true mode = .ok K ∧
      precomputeWignerForwardF (jaxFft F.toFftLib) f K L N sDH reality = .ok (.d3 (2 * N - 1) L (2 * L - 1) out) ∧
      ∀ n el m, |n| < N → 0 ≤ el → el < L → |m| < L →
        ‖out (N - 1 + n) el (m + L - 1) - (if |n| ≤ el ∧ |m| ≤ el then c n el m else 0)‖
          ≤ 8 * Real.pi ^ 2 * (M * (L * √L / 2 ^ 40) + η) + 1 / 2 ^ 800 := by
  have hL : 1 ≤ L := h1.trans hN
  obtain ⟨T, eT, hT, -⟩ := C48_colatitudes F.toDoubleLib lg nodes .dh (by simp) sDH rfl L 0 none hL
    (by omega)
  obtain ⟨dl, e, hd⟩ := wignerKernelJ_near F lg nodes logL (quadWeightsDhJ F fuse fold L T) (σ := .dh)
    (by simp) hL hL1 h1 hN (covers_sqrt hL hL1) reality true hm
  rw [show kRings .dh L 0 true = 2 * L from rfl] at e hd
  simp only [if_true] at e
  obtain ⟨out, eo, ho⟩ := precomputeWignerForwardF_dh (jaxFft F.toFftLib) nodes hL1 h1 hN reality hd (fun t t0 t1 =>
    quadWeightsDhJ_near F fuse fold hL hL1 t0 t1 (by simpa [Scheme.theta] using hT t t0 t1))
    c f M η hsh hM hf hre
  exact ⟨T, _, out, eT, e, eo, ho⟩

/-- The round trip on the Driscoll–Healy grid: each coefficient comes back up to `8π² L^(3/2) / 2³⁹` times
the size of the coefficients. -/
theorem C62_wigner_round_trip_dh (F : XlaLib) (fuse : ℤ → ℤ → Bool) (fold : Bool) (lg : ℤ → ℤ → ℝ) (logL : ℝ) (w : ℤ → ℝ) (L N : ℤ)
    (hL1 : L ≤ 2 ^ 26) (h1 : 1 ≤ N) (hN : N ≤ L) (reality : Bool) (mode : PyStr) (hm : ModeOk .dh L mode)
    (flmn : ℤ → ℤ → ℤ → ℂ) (hre : RealPlane flmn L N reality) :
    ∃ T Ki Kf f out, thetasF F.toDoubleLib lg (some L) sDH none = .ok (2 * L, T) ∧
      wignerKernelJ F lg logL w L N reality sDH false mode = .ok Ki ∧
      wignerKernelJ F lg logL (quadWeightsDhJ F fuse fold L T) L N reality sDH true mode = .ok Kf ∧
      precomputeWignerInverseF (jaxFft F.toFftLib) (.d3 (2 * N - 1) L (2 * L - 1) flmn) Ki L N sDH reality = .ok f ∧
      precomputeWignerForwardF (jaxFft F.toFftLib) f Kf L N sDH reality = .ok (.d3 (2 * N - 1) L (2 * L - 1) out) ∧
      ∀ n el m, |n| < N → 0 ≤ el → el < L → |m| < L → ‖out (N - 1 + n) el (m + L - 1)
          - (if |n| ≤ el ∧ |m| ≤ el then wignerCoeffs flmn L N reality n el m else 0)‖
        ≤ 8 * Real.pi ^ 2 * (so3CoeffSize L N reality flmn * (L * √L / 2 ^ 39)) + 1 / 2 ^ 700 := by
  obtain ⟨s1, s2, s3⟩ := sizeE (h1.trans hN) hL1
  obtain ⟨Ki, f, e1, e2, e3, -, hf⟩ := C62_wigner_inverse F lg (fun _ _ => 0) logL w .dh (by simp) L N hL1 h1 hN
    reality mode hm flmn hre
  have hM : ∀ g t p, 0 ≤ g → g < 2 * N - 1 → Scheme.dh.Has L 0 t p → ‖f.get3 g t p‖
      ≤ so3CoeffSize L N reality flmn + (L * √L / 2 ^ 41 * so3CoeffSize L N reality flmn
        + 1 / 2 ^ 900) := fun g t p g0 g1 hp => by
    have h1 := hf g t p g0 g1 hp
    have h2 := norm_le_norm_add_norm_sub' (f.get3 g t p) (wignerSum 0 L N (wignerCoeffs flmn L N reality)
      (Scheme.dh.phi L 0 t p) (Scheme.dh.theta (fun _ _ => 0) L 0 t) (gammaAt N g))
    have h3 := wignerSum_le hre (Scheme.dh.phi L 0 t p) (Scheme.dh.theta (fun _ _ => 0) L 0 t) (gammaAt N g)
    linarith
  obtain ⟨T, Kf, out, e5, e6, e7, ho⟩ := C62_wigner_forward_dh F fuse fold lg (fun _ _ => 0) logL L N hL1 h1 hN reality mode hm
    (wignerCoeffs flmn L N reality) f _ _ e3 hM hf
    (fun h => by subst h; exact wignerCoeffs_real hre.origin)
  refine ⟨T, Ki, Kf, f, out, e5, e1, e6, e2, e7, fun n el m hn e0 e1 hm =>
    le_trans (ho n el m hn e0 e1 hm) ?_⟩
  have hS0 := so3CoeffSize_nonneg L N reality flmn
  have hp2 : 8 * Real.pi ^ 2 ≤ 128 := by nlinarith [Real.pi_le_four, Real.pi_pos]
  rw [show (L : ℝ) * √L / 2 ^ 41 = 8 * (L * √L / 2 ^ 44) by ring,
    show (L : ℝ) * √L / 2 ^ 40 = 16 * (L * √L / 2 ^ 44) by ring,
    show (L : ℝ) * √L / 2 ^ 39 = 32 * (L * √L / 2 ^ 44) by ring]
  have htin : 256 * (1 / 2 ^ 900 : ℝ) + 1 / 2 ^ 800 ≤ 1 / 2 ^ 700 := by
    have t1 : (1 / 2 ^ 900 : ℝ) ≤ 1 / 2 ^ 710 :=
      one_div_le_one_div_of_le (by positivity) (pow_le_pow_right₀ (by norm_num) (by norm_num))
    have t2 : (1 / 2 ^ 800 : ℝ) ≤ 1 / 2 ^ 710 :=
      one_div_le_one_div_of_le (by positivity) (pow_le_pow_right₀ (by norm_num) (by norm_num))
    have t3 : 1024 * (1 / 2 ^ 710 : ℝ) = 1 / 2 ^ 700 := by
      rw [pow_add 2 700 10]; field_simp; norm_num
    have t4 : (0 : ℝ) ≤ 1 / 2 ^ 710 := by positivity
    linarith
  have ht : (0 : ℝ) ≤ 1 / 2 ^ 900 := by positivity
  generalize (1 / 2 ^ 900 : ℝ) = τ at *
  generalize (L : ℝ) * √L / 2 ^ 44 = E at *
  generalize so3CoeffSize L N reality flmn = S at *
  have hSE : 0 ≤ S * E := mul_nonneg hS0 s1
  have hSEE : S * E * E ≤ S * E * (1 / 32) := mul_le_mul_of_nonneg_left s2 hSE
  have h1 : (S + (8 * E * S + τ)) * (16 * E) + (8 * E * S + τ) ≤ S * (32 * E) + 2 * τ := by
    have ht2 : τ * (16 * E) ≤ τ * 1 := mul_le_mul_of_nonneg_left (by linarith) ht
    have e : (S + (8 * E * S + τ)) * (16 * E) + (8 * E * S + τ)
      = 24 * (S * E) + 128 * (S * E * E) + τ * (16 * E) + τ := by ring
    rw [e, show S * (32 * E) = 32 * (S * E) by ring]
    linarith
  have h2 := mul_le_mul_of_nonneg_left h1 (by positivity : 0 ≤ 8 * Real.pi ^ 2)
  have h3 := mul_le_mul_of_nonneg_right hp2 ht
  linarith

/-- A signal on the rotation group with 64 degrees and three directions on each side. -/
example := C62_wigner_round_trip_dh fusedXlaLib (fun _ _ => true) true (fun _ _ => 0) 4 (fun _ => 0) 64 4
  (by norm_num) (by norm_num) (by norm_num) false mdAuto
  ⟨by simp, fun h => absurd h (by decide), fun _ h => by simp at h⟩
  (fun n l m => n + l + m * Complex.I) (by simp [RealPlane])

/-- A real signal, whose plane `n = 0` is that of a real signal on the sphere. -/
example := C62_wigner_round_trip_dh fusedXlaLib (fun t _ => decide (t = 1)) false (fun _ _ => 0) 4
  (fun _ => 0) 64 4 (by norm_num) (by norm_num) (by norm_num) true mdDirect
  ⟨by simp, fun h => absurd h (by decide), fun h => absurd h (by decide)⟩
  (fun n l m => if n = 3 then (if m = 63 then l else 0) else n + l + m * Complex.I)
  (fun _ el m h0 h1 hm => by
    have e : ∀ k : ℤ, k + 64 - 1 = 63 ↔ k = 0 := fun k => by omega
    by_cases hm0 : m = 0
    · subst hm0; simp
    · simp [e, hm0])

end S2fft
