import Verif.Lemmas.PrecomputeJaxDouble
import Verif.Lemmas.PrecomputeDoubleDh
import Verif.Lemmas.PrecomputeDoubleGl
import Verif.Lemmas.RotationDoubleNorm

/-! # C62: the JAX transforms with precomputed kernels are stable in double precision -/

namespace S2fft
open Spec

/-- The kernel of the inverse transform: every entry is that of the exact kernel up to
`√((2l+1)/(4π)) L^(3/2) / 2⁴¹`. With `reality` (and spin zero) only the orders `m ≥ 0` are stored. -/
theorem C62_kernel (F : XlaLib) (lg nodes : ℤ → ℤ → ℝ) (w : ℤ → ℝ) (σ : Scheme)
    (hσ : σ = .mw ∨ σ = .mwss ∨ σ = .dh) (s : PyStr) (hs : lower s = σ.name) (L spin : ℤ) (hL : 1 ≤ L)
    (hL1 : L ≤ 2 ^ 26) (hsp : |spin| < L) (reality : Bool) (hr : reality = true → spin = 0) :
    ∃ K, spinSphericalKernelJ F lg w L spin reality s false
        = .ok (.d3 (σ.rings L 0) L (if reality then L else 2 * L - 1) K) ∧
      ∀ t el m, 0 ≤ t → t < σ.rings L 0 → 0 ≤ el → el < L → |m| < L → (reality = true → 0 ≤ m) →
        |K t el (if reality then m else m + L - 1) - √((2 * (el : ℝ) + 1) / (4 * Real.pi))
            * wignerd el m (-spin) (σ.theta nodes L 0 t)|
          ≤ √((2 * (el : ℝ) + 1) / (4 * Real.pi)) * (L * √L / 2 ^ 41) := by
  have hv : σ.Valid L 0 := ⟨hL, fun h => by subst h; simp at hσ⟩
  obtain ⟨K, e, h⟩ := spinSphericalKernelJ_near F lg nodes w hσ hs hv hL1 (covers_sqrt hL hL1) hsp
    reality false
  rw [effReality_eq hr] at e h
  refine ⟨K, ?_, fun t el m t0 t1 e0 e1 hm _ => ?_⟩
  · rw [e]
    simp only [kRings, mDim]
    rfl
  · have h1 := h t el m t0 t1 e0 e1 hm
    have e2 : m + L - 1 - mStart L reality = if reality then m else m + L - 1 := by
      unfold mStart; split_ifs <;> ring
    rw [e2] at h1
    refine le_trans h1 (mul_le_mul_of_nonneg_left ?_ (elfactor_nonneg el))
    have := (sizeE hL hL1).1
    rw [show (L : ℝ) * √L / 2 ^ 41 = 8 * (L * √L / 2 ^ 44) by ring]
    linarith

/-- The inverse transform: every sample is that of the expansion up to `L^(3/2) / 2⁴¹` times the size
of the coefficients. -/
theorem C62_inverse (F : XlaLib) (lg nodes : ℤ → ℤ → ℝ) (w : ℤ → ℝ) (σ : Scheme)
    (hσ : σ = .mw ∨ σ = .mwss ∨ σ = .dh) (L spin : ℤ) (hL : 1 ≤ L) (hL1 : L ≤ 2 ^ 26)
    (hsp : |spin| < L) (reality : Bool) (hr : reality = true → spin = 0) (flm : ℤ → ℤ → ℂ)
    (hre : reality = true → ∀ el, 0 ≤ el → el < L → (flm el (L - 1)).im = 0) :
    ∃ K f, spinSphericalKernelJ F lg w L spin reality σ.name false = .ok K ∧
      precomputeInverseF F.toFftLib (.d2 L (2 * L - 1) flm) K L σ.name reality spin = .ok f ∧
      f.shape = σ.shape L 0 ∧ (reality = true → ∀ t p, (f.get2 t p).im = 0) ∧
      ∀ t p, σ.Has L 0 t p → ‖f.get2 t p
        - harmonicSum 0 L spin (effCoeffs flm L reality) (σ.theta nodes L 0 t) (σ.phi L 0 t p)‖
        ≤ L * √L / 2 ^ 41 * coeffSize L (effCoeffs flm L reality) + 1 / 2 ^ 900 := by
  have hv : σ.Valid L 0 := ⟨hL, fun h => by subst h; simp at hσ⟩
  obtain ⟨K, e, h⟩ := spinSphericalKernelJ_near F lg nodes w hσ (lower_name σ) hv hL1
    (covers_sqrt hL hL1) hsp reality false
  rw [effReality_eq hr] at e h
  obtain ⟨f, e1, hf⟩ := precomputeInverseF_uniform F.toFftLib nodes hσ hL hL1 hr h flm hre
  exact ⟨_, f, e, e1, hf⟩

/-- The forward transform from the Driscoll–Healy grid, of samples that are those of an expansion up to
`η` and at most `M` in size: every coefficient is that of the expansion up to
`4π √((2l+1)/(4π)) (M L^(3/2) / 2⁴¹ + η)`. -/
theorem C62_forward_dh (F : XlaLib) (fuse : ℤ → ℤ → Bool) (fold : Bool) (lg nodes : ℤ → ℤ → ℝ) (L spin : ℤ) (hL : 1 ≤ L)
    (hL1 : L ≤ 2 ^ 26) (hsp : |spin| < L) (reality : Bool) (hr : reality = true → spin = 0)
    (c : ℤ → ℤ → ℂ) (f : Nd ℂ) (M η : ℝ) (hsh : f.shape = Scheme.dh.shape L 0)
    (hM : ∀ t p, Scheme.dh.Has L 0 t p → ‖f.get2 t p‖ ≤ M)
    (hf : ∀ t p, Scheme.dh.Has L 0 t p → ‖f.get2 t p - harmonicSum 0 L spin c
      (Scheme.dh.theta nodes L 0 t) (Scheme.dh.phi L 0 t p)‖ ≤ η)
    (hre : reality = true → RealHarmonics c 0 L ∧
      ∀ t p, Scheme.dh.Has L 0 t p → (f.get2 t p).im = 0) :
    ∃ T K out, thetasF F.toDoubleLib lg (some L) sDH none = .ok (2 * L, T) ∧
      spinSphericalKernelJ F lg (quadWeightsDhJ F fuse fold L T) L spin reality sDH true = .ok K ∧
      precomputeForwardF F.toFftLib f K L sDH reality spin = .ok (.d2 L (2 * L - 1) out) ∧
      ∀ el m, 0 ≤ el → el < L → |m| < L →
        ‖out el (m + L - 1) - (if |spin| ≤ el ∧ |m| ≤ el then c el m else 0)‖
          ≤ 4 * Real.pi * √((2 * (el : ℝ) + 1) / (4 * Real.pi)) * (M * (L * √L / 2 ^ 41) + η)
            + 1 / 2 ^ 800 := by
  obtain ⟨T, eT, hT, -⟩ := C48_colatitudes F.toDoubleLib lg nodes .dh (by simp) sDH rfl L 0 none hL
    (by omega)
  obtain ⟨K, e, h⟩ := spinSphericalKernelJ_near F lg nodes (quadWeightsDhJ F fuse fold L T)
    (σ := .dh) (s := sDH) (n := 0) (by simp) rfl ⟨hL, by simp⟩ hL1 (covers_sqrt hL hL1) hsp reality true
  rw [effReality_eq hr] at e h
  obtain ⟨out, eo, ho⟩ := precomputeForwardF_dh F.toFftLib nodes hL hL1 hr h (fun t t0 t1 =>
    quadWeightsDhJ_near F fuse fold hL hL1 t0 t1 (by simpa [Scheme.theta] using hT t t0 t1))
    c f M η hsh hM hf hre
  exact ⟨T, _, out, eT, e, eo, ho⟩

/-- The round trip on the Driscoll–Healy grid: each coefficient comes back up to
`4π √((2l+1)/(4π)) L^(3/2) / 2³⁹` times the size of the coefficients. -/
theorem C62_round_trip_dh (F : XlaLib) (fuse : ℤ → ℤ → Bool) (fold : Bool) (lg : ℤ → ℤ → ℝ) (w : ℤ → ℝ) (L spin : ℤ) (hL : 1 ≤ L)
    (hL1 : L ≤ 2 ^ 26) (hsp : |spin| < L) (reality : Bool) (hr : reality = true → spin = 0)
    (flm : ℤ → ℤ → ℂ) (hre : reality = true → ∀ el, 0 ≤ el → el < L → (flm el (L - 1)).im = 0) :
    ∃ T Ki Kf f out, thetasF F.toDoubleLib lg (some L) sDH none = .ok (2 * L, T) ∧
      spinSphericalKernelJ F lg w L spin reality sDH false = .ok Ki ∧
      spinSphericalKernelJ F lg (quadWeightsDhJ F fuse fold L T) L spin reality sDH true = .ok Kf ∧
      precomputeInverseF F.toFftLib (.d2 L (2 * L - 1) flm) Ki L sDH reality spin = .ok f ∧
      precomputeForwardF F.toFftLib f Kf L sDH reality spin = .ok (.d2 L (2 * L - 1) out) ∧
      ∀ el m, 0 ≤ el → el < L → |m| < L → ‖out el (m + L - 1)
          - (if |spin| ≤ el ∧ |m| ≤ el then effCoeffs flm L reality el m else 0)‖
        ≤ 4 * Real.pi * √((2 * (el : ℝ) + 1) / (4 * Real.pi))
            * (coeffSize L (effCoeffs flm L reality) * (L * √L / 2 ^ 39)) + 1 / 2 ^ 700 := by
  obtain ⟨T, eT, hT, -⟩ := C48_colatitudes F.toDoubleLib lg (fun _ _ => 0) .dh (by simp) sDH rfl L 0 none hL
    (by omega)
  obtain ⟨Ki, ei, hi⟩ := spinSphericalKernelJ_near F lg (fun _ _ => 0) w
    (σ := .dh) (s := sDH) (n := 0) (by simp) rfl ⟨hL, by simp⟩ hL1 (covers_sqrt hL hL1) hsp reality false
  obtain ⟨Kf, e, h⟩ := spinSphericalKernelJ_near F lg (fun _ _ => 0) (quadWeightsDhJ F fuse fold L T)
    (σ := .dh) (s := sDH) (n := 0) (by simp) rfl ⟨hL, by simp⟩ hL1 (covers_sqrt hL hL1) hsp reality true
  rw [effReality_eq hr] at e h ei hi
  obtain ⟨f, out, e1, e2, ho⟩ := precomputeRoundTripF_dh F.toFftLib hL hL1 hr hi h (fun t t0 t1 =>
    quadWeightsDhJ_near F fuse fold hL hL1 t0 t1 (by simpa [Scheme.theta] using hT t t0 t1)) flm hre
  exact ⟨T, _, _, f, out, eT, ei, e, e1, e2, ho⟩

/-- The Gauss–Legendre grid, whose angles and weights come from tables: the kernel, for angles correct
up to `τ`. -/
theorem C62_kernel_gl (F : XlaLib) (lg nodes : ℤ → ℤ → ℝ) (w : ℤ → ℝ) (s : PyStr)
    (hs : lower s = sGL) (L spin : ℤ) (hL : 1 ≤ L) (hL1 : L ≤ 2 ^ 26) (hsp : |spin| < L)
    (reality forward : Bool) (hr : reality = true → spin = 0) (τ : ℝ)
    (hτ : ∀ t, 0 ≤ t → t < L →
      |F.arccos (lg L (L - 1 - t)) - Real.arccos (nodes L (L - 1 - t))| ≤ τ) (hτ1 : L * τ ≤ 1 / 4) :
    ∃ K, spinSphericalKernelJ F lg w L spin reality s forward
        = .ok (.d3 L L (if reality then L else 2 * L - 1)
            (if forward then fun t el j => F.fl (K t el j * w t) else K)) ∧
      ∀ t el m, 0 ≤ t → t < L → 0 ≤ el → el < L → |m| < L →
        |K t el (if reality then m else m + L - 1) - √((2 * (el : ℝ) + 1) / (4 * Real.pi))
            * wignerd el m (-spin) (Real.arccos (nodes L (L - 1 - t)))|
          ≤ √((2 * (el : ℝ) + 1) / (4 * Real.pi)) * (L * √L / 2 ^ 43 + L * τ) := by
  have hL' : (1 : ℝ) ≤ L := by exact_mod_cast hL
  have hτ0 : 0 ≤ τ := le_trans (abs_nonneg _) (hτ 0 le_rfl (by omega))
  have h := kernelRisboJ_near_gl F (spin := spin) (nt := L) (s := s)
    (θ := fun t => Real.arccos (nodes L (L - 1 - t))) (θ' := fun t => F.arccos (lg L (L - 1 - t)))
    (reality := reality) hs hL hL1 (covers_sqrt hL hL1) (fun t t0 t1 => by
      have h1 := hτ t t0 t1
      have h2 := Real.arccos_le_pi (nodes L (L - 1 - t))
      have h3 := Real.arccos_nonneg (nodes L (L - 1 - t))
      have h4 := abs_sub_abs_le_abs_sub (F.arccos (lg L (L - 1 - t))) (Real.arccos (nodes L (L - 1 - t)))
      rw [abs_of_nonneg h3] at h4
      have h5 := Real.pi_lt_d2
      nlinarith) hτ hτ1 hsp
  refine ⟨kernelRisboJ F L spin s L (fun t => F.arccos (lg L (L - 1 - t))) reality, ?_,
    fun t el m t0 t1 e0 e1 hm => ?_⟩
  · have eT : kernelThetasF F.toDoubleLib lg L s forward
        = .ok (s, L, fun t => F.arccos (lg L (L - 1 - t))) := by
      unfold kernelThetasF
      rw [if_neg (by rw [hs]; rintro ⟨-, h | h⟩ <;> revert h <;> decide)]
      unfold thetasF
      rw [if_pos hs]
      rfl
    unfold spinSphericalKernelJ
    rw [show (if reality = true ∧ spin ≠ 0 then false else reality) = reality from effReality_eq hr, eT]
    rfl
  · have h1 := h t el m t0 t1 e0 e1 hm
    have e2 : m + L - 1 - mStart L reality = if reality then m else m + L - 1 := by
      unfold mStart; split_ifs <;> ring
    rw [e2, show 2 * ((L : ℝ) * √L / 2 ^ 44) = L * √L / 2 ^ 43 by ring] at h1
    exact h1

/-- The round trip on the Gauss–Legendre grid, for angles correct up to `τ` and weights up to `δ`. -/
theorem C62_round_trip_gl (F : XlaLib) (lg nodes weights : ℤ → ℤ → ℝ) (w w' : ℤ → ℝ) (L spin : ℤ)
    (hL : 1 ≤ L) (hL1 : L ≤ 2 ^ 26) (hG : GlExact nodes weights L) (hsp : |spin| < L) (reality : Bool)
    (hr : reality = true → spin = 0) (τ δ : ℝ)
    (hτ : ∀ t, 0 ≤ t → t < L →
      |F.arccos (lg L (L - 1 - t)) - Real.arccos (nodes L (L - 1 - t))| ≤ τ) (hτ1 : L * τ ≤ 1 / 16)
    (hδ : ∀ t, 0 ≤ t → t < L → |w' t - weights L t| ≤ δ) (hδ0 : 1 / 2 ^ 190 ≤ δ)
    (hδ1 : 2 * L * L * δ ≤ 1) (flm : ℤ → ℤ → ℂ)
    (hre : reality = true → ∀ el, 0 ≤ el → el < L → (flm el (L - 1)).im = 0) :
    ∃ Ki Kf f out, spinSphericalKernelJ F lg w L spin reality sGL false = .ok Ki ∧
      spinSphericalKernelJ F lg w' L spin reality sGL true = .ok Kf ∧
      precomputeInverseF F.toFftLib (.d2 L (2 * L - 1) flm) Ki L sGL reality spin = .ok f ∧
      precomputeForwardF F.toFftLib f Kf L sGL reality spin = .ok (.d2 L (2 * L - 1) out) ∧
      ∀ el m, 0 ≤ el → el < L → |m| < L → ‖out el (m + L - 1)
          - (if |spin| ≤ el ∧ |m| ≤ el then effCoeffs flm L reality el m else 0)‖
        ≤ 4 * Real.pi * √((2 * (el : ℝ) + 1) / (4 * Real.pi))
            * (coeffSize L (effCoeffs flm L reality) * (L * √L / 2 ^ 41 + 3 * L * τ + L * L * δ))
          + 1 / 2 ^ 700 := by
  have hτ0 : 0 ≤ τ := le_trans (abs_nonneg _) (hτ 0 le_rfl (by omega))
  have hker : ∀ (w : ℤ → ℝ) (forward : Bool), ∃ K, spinSphericalKernelJ F lg w L spin reality sGL forward
        = .ok (.d3 L L (mDim L reality)
            (if forward then fun t el j => F.fl (K t el j * w t) else K)) ∧
      KernelNearF K L spin L reality (Scheme.gl.theta nodes L 0) (2 * (L * √L / 2 ^ 44) + L * τ) := by
    intro w forward
    obtain ⟨K, e, h⟩ := C62_kernel_gl F lg nodes w sGL rfl L spin hL hL1 hsp reality forward hr τ hτ
      (by linarith)
    refine ⟨K, by rw [e]; rfl, fun t el m t0 t1 e0 e1 hm => ?_⟩
    have h1 := h t el m t0 t1 e0 e1 hm
    have e2 : m + L - 1 - mStart L reality = if reality then m else m + L - 1 := by
      unfold mStart; split_ifs <;> ring
    rw [e2, show 2 * ((L : ℝ) * √L / 2 ^ 44) = L * √L / 2 ^ 43 by ring]
    exact h1
  obtain ⟨Ki, e1, hKi⟩ := hker w false
  obtain ⟨Kf, e2, hKf⟩ := hker w' true
  obtain ⟨f, out, e3, e4, ho⟩ := precomputeRoundTripF_gl F.toFftLib hL hL1 hG hr hτ0 hτ1 hKi hKf hδ hδ0 hδ1 flm hre
  exact ⟨_, _, f, out, e1, e2, e3, e4, ho⟩

/-- A compiler that contracts multiplications with additions and divides by multiplying, and
coefficients of a signal of spin 1 on its grid. -/
example := C62_round_trip_dh fusedXlaLib (fun _ _ => true) true (fun _ _ => 0) (fun _ => 0) 8 1
  (by norm_num) (by norm_num) (by norm_num) false (by simp) (fun l m => l + m * Complex.I) (by simp)

/-- The same for a real signal, with the sums of the weights rounded after each operation. -/
example := C62_round_trip_dh fusedXlaLib (fun _ _ => false) false (fun _ _ => 0) (fun _ => 0) 1024 0
  (by norm_num) (by norm_num) (by norm_num) true (by simp) (fun l m => (l + m : ℝ))
  (by intro _ l _ _; exact Complex.ofReal_im _)

end S2fft
