import Verif.Lemmas.PrecomputeDoubleForward

/-! # The round trip on the Gauss–Legendre grid in double precision, for any kernels near the exact ones -/

namespace S2fft
open Spec

/-- For kernels at angles correct up to `τ` and weights up to `δ`. -/
theorem precomputeRoundTripF_gl (F : FftLib) {nodes weights : ℤ → ℤ → ℝ} {w' : ℤ → ℝ} {L spin : ℤ}
    (hL : 1 ≤ L) (hL1 : L ≤ 2 ^ 26) (hG : GlExact nodes weights L) {reality : Bool}
    (hr : reality = true → spin = 0) {τ δ : ℝ} (hτ0 : 0 ≤ τ) (hτ1 : L * τ ≤ 1 / 16)
    {Ki Kf : ℤ → ℤ → ℤ → ℝ}
    (hKi : KernelNearF Ki L spin L reality (Scheme.gl.theta nodes L 0) (2 * (L * √L / 2 ^ 44) + L * τ))
    (hKf : KernelNearF Kf L spin L reality (Scheme.gl.theta nodes L 0) (2 * (L * √L / 2 ^ 44) + L * τ))
    (hδ : ∀ t, 0 ≤ t → t < L → |w' t - weights L t| ≤ δ) (hδ0 : 1 / 2 ^ 190 ≤ δ)
    (hδ1 : 2 * L * L * δ ≤ 1) (flm : ℤ → ℤ → ℂ)
    (hre : reality = true → ∀ el, 0 ≤ el → el < L → (flm el (L - 1)).im = 0) :
    ∃ f out, precomputeInverseF F (.d2 L (2 * L - 1) flm) (.d3 L L (mDim L reality) Ki) L sGL reality spin
        = .ok f ∧
      precomputeForwardF F f (.d3 L L (mDim L reality) (fun t el j => F.fl (Kf t el j * w' t))) L sGL
        reality spin = .ok (.d2 L (2 * L - 1) out) ∧
      ∀ el m, 0 ≤ el → el < L → |m| < L → ‖out el (m + L - 1)
          - (if |spin| ≤ el ∧ |m| ≤ el then effCoeffs flm L reality el m else 0)‖
        ≤ 4 * Real.pi * √((2 * (el : ℝ) + 1) / (4 * Real.pi))
            * (coeffSize L (effCoeffs flm L reality) * (L * √L / 2 ^ 41 + 3 * L * τ + L * L * δ))
          + 1 / 2 ^ 700 := by
  have hL' : (1 : ℝ) ≤ L := by exact_mod_cast hL
  obtain ⟨s1, s2, s3⟩ := sizeE hL hL1
  have hδp : 0 ≤ δ := le_trans (by positivity) hδ0
  have hpi3 := Real.pi_gt_three
  have hSn : 0 ≤ coeffSize L (effCoeffs flm L reality) := by
    unfold coeffSize
    exact Finset.sum_nonneg fun l _ => Finset.sum_nonneg fun m _ =>
      mul_nonneg (Real.sqrt_nonneg _) (norm_nonneg _)
  obtain ⟨f, e3, e4, e5, hf⟩ := precomputeInverseF_near F (σ := .gl) (by decide) ⟨hL, by simp⟩ hL1 flm hr
    hre (K := Ki) (θ := Scheme.gl.theta nodes L 0) hKi (by linarith)
  set S := coeffSize L (effCoeffs flm L reality) with hS
  have hf2 : ∀ t p, Scheme.gl.Has L 0 t p → ‖f.get2 t p - harmonicSum 0 L spin (effCoeffs flm L reality)
      (Scheme.gl.theta nodes L 0 t) (Scheme.gl.phi L 0 t p)‖
      ≤ (9 / 4 * (L * √L / 2 ^ 44) + L * τ) * S + 1 / 2 ^ 900 := by
    intro t p hp
    refine le_trans (hf t p hp) (add_le_add (mul_le_mul_of_nonneg_right ?_ hSn) le_rfl)
    have : (L : ℝ) / 2 ^ 46 = 1 / 4 * (L / 2 ^ 44) := by ring
    linarith
  have ht : (0 : ℝ) ≤ 1 / 2 ^ 900 := by positivity
  have hM : ∀ t p, Scheme.gl.Has L 0 t p → ‖f.get2 t p‖ ≤ 6 / 5 * S + 1 / 2 ^ 900 := by
    intro t p hp
    have h1 := hf2 t p hp
    have h2 := norm_le_norm_add_norm_sub' (f.get2 t p) (harmonicSum 0 L spin (effCoeffs flm L reality)
      (Scheme.gl.theta nodes L 0 t) (Scheme.gl.phi L 0 t p))
    have h3 := harmonicSum_le L spin (effCoeffs flm L reality)
      (Scheme.gl.theta nodes L 0 t) (Scheme.gl.phi L 0 t p)
    have h4 : (9 / 4 * (L * √L / 2 ^ 44) + L * τ) * S ≤ 1 / 5 * S :=
      mul_le_mul_of_nonneg_right (by linarith) hSn
    linarith
  obtain ⟨out, e6, ho⟩ := precomputeForwardF_near F (σ := .gl) (nodes := nodes) hL hL1
    (ringRule_gl hL hG) hr (K := Kf) (w' := w') hKf (by positivity) (by linarith) hδ hδ0
    (Δ := 2 * L * L * δ) (by
      simp only [Scheme.rings]
      have : 0 ≤ (L : ℝ) * δ := by positivity
      nlinarith) hδ1 (c := effCoeffs flm L reality) f e4 hM (by linarith) hf2 (fun h => ⟨by
      unfold effCoeffs
      rw [if_pos h]
      exact realCoeffs_real _ fun l h0 h1 => by
        have := hre h l h0 h1
        rwa [show (0 : ℤ) + L - 1 = L - 1 by ring], fun t p _ => e5 h t p⟩)
  refine ⟨f, out, e3, e6, fun el m e0 e1 hm => le_trans (ho el m e0 e1 hm) ?_⟩
  have he := elfactor_nonneg el
  have hsm := elfactor_small e0 e1 hL1
  rw [show √((2 * (el : ℝ) + 1) / (4 * Real.pi)) = elfactor el from rfl,
    show (L : ℝ) * √L / 2 ^ 41 = 8 * (L * √L / 2 ^ 44) by ring,
    show (L : ℝ) / 2 ^ 45 = 1 / 2 * (L / 2 ^ 44) by ring]
  generalize (L : ℝ) * √L / 2 ^ 44 = E at *
  generalize (L : ℝ) / 2 ^ 44 = E1 at *
  have hx0 : 0 ≤ (L : ℝ) * τ := by positivity
  have hy0 : 0 ≤ (L : ℝ) * L * δ := by positivity
  rw [show 3 * (L : ℝ) * τ = 3 * (L * τ) by ring]
  have hy1 : (L : ℝ) * L * δ ≤ 1 / 2 := by linarith
  rw [show 2 * (L : ℝ) * L * δ = 2 * (L * L * δ) by ring]
  generalize (L : ℝ) * τ = x at *
  generalize (L : ℝ) * L * δ = y at *
  have hpe : 0 ≤ 4 * Real.pi * elfactor el := mul_nonneg (by positivity) he
  have h1 : 4 * Real.pi * (2 * E + x + 1 / 2 * E1) + 3 * (2 * y) ≤ 4 * Real.pi * (5 / 2 * E + x + 1 / 2 * y) := by
    nlinarith
  have hM0 : 0 ≤ elfactor el * (6 / 5 * S + 1 / 2 ^ 900) := by positivity
  have h2 := mul_le_mul_of_nonneg_left h1 hM0
  have hz : 5 / 2 * E + x + 1 / 2 * y ≤ 1 := by linarith
  have h3 : (6 / 5 * S + 1 / 2 ^ 900) * (5 / 2 * E + x + 1 / 2 * y)
      + ((9 / 4 * E + x) * S + 1 / 2 ^ 900) ≤ S * (8 * E + 3 * x + y) + 2 * (1 / 2 ^ 900) := by
    have a1 := mul_le_mul_of_nonneg_left hz ht
    have a2 : 0 ≤ S * E := mul_nonneg hSn s1
    have a3 : 0 ≤ S * x := mul_nonneg hSn hx0
    have a4 : 0 ≤ S * y := mul_nonneg hSn hy0
    nlinarith
  have h4 := mul_le_mul_of_nonneg_left h3 hpe
  have e7 : elfactor el * (6 / 5 * S + 1 / 2 ^ 900) * (4 * Real.pi * (5 / 2 * E + x + 1 / 2 * y))
      = 4 * Real.pi * elfactor el * ((6 / 5 * S + 1 / 2 ^ 900) * (5 / 2 * E + x + 1 / 2 * y)) := by ring
  have htin : 2 * (1 / 2 ^ 880 : ℝ) + 1 / 2 ^ 900 ≤ 1 / 2 ^ 700 := by
    have t1 : (1 / 2 ^ 880 : ℝ) ≤ 1 / 2 ^ 702 :=
      one_div_le_one_div_of_le (by positivity) (pow_le_pow_right₀ (by norm_num) (by norm_num))
    have t2 : (1 / 2 ^ 900 : ℝ) ≤ 1 / 2 ^ 702 :=
      one_div_le_one_div_of_le (by positivity) (pow_le_pow_right₀ (by norm_num) (by norm_num))
    have t3 : 4 * (1 / 2 ^ 702 : ℝ) = 1 / 2 ^ 700 := by
      rw [pow_add 2 700 2]; field_simp; norm_num
    have t4 : (0 : ℝ) ≤ 1 / 2 ^ 702 := by positivity
    linarith
  rw [mul_add (4 * Real.pi * elfactor el) ((6 / 5 * S + 1 / 2 ^ 900) * _),
    mul_add (4 * Real.pi * elfactor el) (S * _)] at h4
  linarith

end S2fft
