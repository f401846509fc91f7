import Verif.Lemmas.PrecomputeDoubleForward

/-! # The forward transform from the Gauss–Legendre grid in double precision, for any kernel near the exact
one -/

namespace S2fft
open Spec

/-- For a kernel at angles correct up to `τ` and weights up to `δ`. -/
theorem precomputeForwardF_gl (F : FftLib) {nodes weights : ℤ → ℤ → ℝ} {w' : ℤ → ℝ} {L spin : ℤ}
    (hL : 1 ≤ L) (hL1 : L ≤ 2 ^ 26) (hG : GlExact nodes weights L) {reality : Bool}
    (hr : reality = true → spin = 0) {τ δ : ℝ} (hτ0 : 0 ≤ τ) (hτ1 : L * τ ≤ 1 / 16)
    {K : ℤ → ℤ → ℤ → ℝ}
    (hK : KernelNearF K L spin L reality (Scheme.gl.theta nodes L 0) (2 * (L * √L / 2 ^ 44) + L * τ))
    (hδ : ∀ t, 0 ≤ t → t < L → |w' t - weights L t| ≤ δ) (hδ0 : 1 / 2 ^ 190 ≤ δ)
    (hδ1 : 2 * L * L * δ ≤ 1) (c : ℤ → ℤ → ℂ) (f : Nd ℂ) (M η : ℝ) (hsh : f.shape = Scheme.gl.shape L 0)
    (hM : ∀ t p, Scheme.gl.Has L 0 t p → ‖f.get2 t p‖ ≤ M)
    (hf : ∀ t p, Scheme.gl.Has L 0 t p → ‖f.get2 t p - harmonicSum 0 L spin c
      (Scheme.gl.theta nodes L 0 t) (Scheme.gl.phi L 0 t p)‖ ≤ η)
    (hre : reality = true → RealHarmonics c 0 L ∧
      ∀ t p, Scheme.gl.Has L 0 t p → (f.get2 t p).im = 0) :
    ∃ out, precomputeForwardF F f (.d3 L L (mDim L reality) (fun t el j => F.fl (K t el j * w' t))) L sGL
        reality spin = .ok (.d2 L (2 * L - 1) out) ∧
      ∀ el m, 0 ≤ el → el < L → |m| < L →
        ‖out el (m + L - 1) - (if |spin| ≤ el ∧ |m| ≤ el then c el m else 0)‖
          ≤ 4 * Real.pi * √((2 * (el : ℝ) + 1) / (4 * Real.pi))
              * (M * (L * √L / 2 ^ 42 + L * τ + L * L * δ) + η) + 1 / 2 ^ 800 := by
  have hL' : (1 : ℝ) ≤ L := by exact_mod_cast hL
  obtain ⟨s1, s2, s3⟩ := sizeE hL hL1
  have hδp : 0 ≤ δ := le_trans (by positivity) hδ0
  have hpi3 := Real.pi_gt_three
  have hM0 : 0 ≤ M := le_trans (norm_nonneg _) (hM 0 0 ⟨le_rfl, by simp only [Scheme.rings]; omega, le_rfl,
    by simp only [Scheme.ringLen]; omega⟩)
  have ht : (0 : ℝ) ≤ 1 / 2 ^ 900 := by positivity
  obtain ⟨out, eo, ho⟩ := precomputeForwardF_near F (σ := .gl) (nodes := nodes) hL hL1
    (ringRule_gl hL hG) hr (K := K) (w' := w') hK (by positivity) (by linarith) hδ hδ0
    (Δ := 2 * L * L * δ) (by
      simp only [Scheme.rings]
      have : 0 ≤ (L : ℝ) * δ := by positivity
      nlinarith) hδ1 (c := c) f hsh (M := M + 1 / 2 ^ 900)
    (fun t p hp => le_trans (hM t p hp) (by linarith)) (by linarith) hf hre
  refine ⟨out, eo, fun el m e0 e1 hm => le_trans (ho el m e0 e1 hm) ?_⟩
  have he := elfactor_nonneg el
  have hsm := elfactor_small e0 e1 hL1
  rw [show √((2 * (el : ℝ) + 1) / (4 * Real.pi)) = elfactor el from rfl,
    show (L : ℝ) * √L / 2 ^ 42 = 4 * (L * √L / 2 ^ 44) by ring,
    show (L : ℝ) / 2 ^ 45 = 1 / 2 * (L / 2 ^ 44) by ring]
  have htin : (1 / 2 ^ 880 : ℝ) + 1 / 2 ^ 900 ≤ 1 / 2 ^ 800 := by
    have t1 : (1 / 2 ^ 880 : ℝ) ≤ 1 / 2 ^ 801 :=
      one_div_le_one_div_of_le (by positivity) (pow_le_pow_right₀ (by norm_num) (by norm_num))
    have t2 : (1 / 2 ^ 900 : ℝ) ≤ 1 / 2 ^ 801 :=
      one_div_le_one_div_of_le (by positivity) (pow_le_pow_right₀ (by norm_num) (by norm_num))
    have t3 : (1 / 2 ^ 801 : ℝ) + 1 / 2 ^ 801 = 1 / 2 ^ 800 := by
      rw [pow_succ]; field_simp; norm_num
    linarith
  have hx0 : 0 ≤ (L : ℝ) * τ := by positivity
  have hy0 : 0 ≤ (L : ℝ) * L * δ := by positivity
  have hy1 : (L : ℝ) * L * δ ≤ 1 / 2 := by linarith
  rw [show 2 * (L : ℝ) * L * δ = 2 * (L * L * δ) by ring]
  generalize (L : ℝ) * √L / 2 ^ 44 = E at *
  generalize (L : ℝ) / 2 ^ 44 = E1 at *
  generalize (L : ℝ) * τ = x at *
  generalize (L : ℝ) * L * δ = y at *
  have hb : 4 * Real.pi * (2 * E + x + 1 / 2 * E1) + 3 * (2 * y) ≤ 4 * Real.pi * (4 * E + x + y) := by
    nlinarith
  have hx : 0 ≤ elfactor el * (M + 1 / 2 ^ 900) := mul_nonneg he (by linarith)
  have h1 := mul_le_mul_of_nonneg_left hb hx
  have h2 : 4 * Real.pi * elfactor el * (1 / 2 ^ 900) * (4 * E + x + y) ≤ 1 / 2 ^ 880 * 1 :=
    mul_le_mul hsm (by linarith) (by linarith) (by positivity)
  have e3 : elfactor el * (M + 1 / 2 ^ 900) * (4 * Real.pi * (4 * E + x + y))
      = 4 * Real.pi * elfactor el * (M * (4 * E + x + y))
        + 4 * Real.pi * elfactor el * (1 / 2 ^ 900) * (4 * E + x + y) := by
    ring
  rw [mul_add (4 * Real.pi * elfactor el)]
  linarith

end S2fft
