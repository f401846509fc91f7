import Verif.Lemmas.PrecomputeDoubleForward

/-! # The transforms with precomputed kernels in double precision, for any kernel near the exact one -/

namespace S2fft
open Spec

/-- The inverse transform with a kernel near the exact one. -/
theorem precomputeInverseF_uniform (F : FftLib) (nodes : ℤ → ℤ → ℝ) {σ : Scheme}
    (hσ : σ = .mw ∨ σ = .mwss ∨ σ = .dh) {L spin : ℤ} (hL : 1 ≤ L) (hL1 : L ≤ 2 ^ 26)
    {reality : Bool} (hr : reality = true → spin = 0) {K : ℤ → ℤ → ℤ → ℝ}
    (h : KernelNearF K L spin (σ.rings L 0) reality (σ.theta nodes L 0) (6 * (L * √L / 2 ^ 44)))
    (flm : ℤ → ℤ → ℂ) (hre : reality = true → ∀ el, 0 ≤ el → el < L → (flm el (L - 1)).im = 0) :
    ∃ f, precomputeInverseF F (.d2 L (2 * L - 1) flm) (.d3 (σ.rings L 0) L (mDim L reality) K) L σ.name
        reality spin = .ok f ∧
      f.shape = σ.shape L 0 ∧ (reality = true → ∀ t p, (f.get2 t p).im = 0) ∧
      ∀ t p, σ.Has L 0 t p → ‖f.get2 t p
        - harmonicSum 0 L spin (effCoeffs flm L reality) (σ.theta nodes L 0 t) (σ.phi L 0 t p)‖
        ≤ L * √L / 2 ^ 41 * coeffSize L (effCoeffs flm L reality) + 1 / 2 ^ 900 := by
  have hv : σ.Valid L 0 := ⟨hL, fun h => by subst h; simp at hσ⟩
  have hh : σ ≠ .healpix := by rintro rfl; simp at hσ
  obtain ⟨s1, s2, s3⟩ := sizeE hL hL1
  obtain ⟨f, e1, e2, e3, hf⟩ := precomputeInverseF_near F hh hv hL1 flm hr hre
    (K := K) (θ := σ.theta nodes L 0) h (by linarith)
  refine ⟨f, e1, e2, e3, fun t p hp => le_trans (hf t p hp) (add_le_add ?_ le_rfl)⟩
  refine mul_le_mul_of_nonneg_right ?_ ?_
  · rw [show (L : ℝ) * √L / 2 ^ 41 = 8 * (L * √L / 2 ^ 44) by ring]
    have : (L : ℝ) / 2 ^ 46 = 1 / 4 * (L / 2 ^ 44) := by ring
    linarith
  · unfold coeffSize
    exact Finset.sum_nonneg fun l _ => Finset.sum_nonneg fun m _ =>
      mul_nonneg (Real.sqrt_nonneg _) (norm_nonneg _)

/-- The forward transform from the Driscoll–Healy grid with a kernel and weights near the exact ones. -/
theorem precomputeForwardF_dh (F : FftLib) (nodes : ℤ → ℤ → ℝ) {L spin : ℤ} (hL : 1 ≤ L)
    (hL1 : L ≤ 2 ^ 26) {reality : Bool} (hr : reality = true → spin = 0) {K : ℤ → ℤ → ℤ → ℝ}
    {w' : ℤ → ℝ}
    (h : KernelNearF K L spin (Scheme.dh.rings L 0) reality (Scheme.dh.theta nodes L 0)
      (6 * (L * √L / 2 ^ 44)))
    (hw : ∀ t, 0 ≤ t → t < Scheme.dh.rings L 0 →
      |w' t - quad_weights_dh L t| ≤ 192 * √(L : ℝ) / 2 ^ 50 / (2 * L - 1))
    (c : ℤ → ℤ → ℂ) (f : Nd ℂ) (M η : ℝ) (hsh : f.shape = Scheme.dh.shape L 0)
    (hM : ∀ t p, Scheme.dh.Has L 0 t p → ‖f.get2 t p‖ ≤ M)
    (hf : ∀ t p, Scheme.dh.Has L 0 t p → ‖f.get2 t p - harmonicSum 0 L spin c
      (Scheme.dh.theta nodes L 0 t) (Scheme.dh.phi L 0 t p)‖ ≤ η)
    (hre : reality = true → RealHarmonics c 0 L ∧
      ∀ t p, Scheme.dh.Has L 0 t p → (f.get2 t p).im = 0) :
    ∃ out, precomputeForwardF F f (.d3 (Scheme.dh.rings L 0) L (mDim L reality)
        (fun t el j => F.fl (K t el j * w' t))) L sDH reality spin = .ok (.d2 L (2 * L - 1) out) ∧
      ∀ el m, 0 ≤ el → el < L → |m| < L →
        ‖out el (m + L - 1) - (if |spin| ≤ el ∧ |m| ≤ el then c el m else 0)‖
          ≤ 4 * Real.pi * √((2 * (el : ℝ) + 1) / (4 * Real.pi)) * (M * (L * √L / 2 ^ 41) + η)
            + 1 / 2 ^ 800 := by
  have hL' : (1 : ℝ) ≤ L := by exact_mod_cast hL
  obtain ⟨s1, s2, s3⟩ := sizeE hL hL1
  have hs1 : 1 ≤ √(L : ℝ) := by rw [Real.le_sqrt' (by norm_num)]; linarith
  have hn : (0 : ℝ) < 2 * L - 1 := by linarith
  have hL2 : (L : ℝ) ≤ 2 ^ 26 := by exact_mod_cast hL1
  have hpi3 := Real.pi_gt_three
  have hM0 : 0 ≤ M := le_trans (norm_nonneg _) (hM 0 0 ⟨le_rfl, by simp [Scheme.rings]; omega, le_rfl,
    by simp [Scheme.ringLen]; omega⟩)
  obtain ⟨out, eo, ho⟩ := precomputeForwardF_near F (σ := .dh) (nodes := nodes) hL hL1
    (ringRule_dh nodes hL) hr (K := K) (ε := 6 * (L * √L / 2 ^ 44)) h (by linarith) (by linarith) hw
    (by
      rw [div_div, div_le_div_iff₀ (by norm_num) (by positivity)]
      norm_num at hL2 ⊢
      nlinarith)
    (Δ := 6 * (L * √L / 2 ^ 44)) (by
      have e1 : (2 * (L : ℝ) - 1) * ((Scheme.dh.rings L 0 : ℤ) * (192 * √(L : ℝ) / 2 ^ 50 / (2 * L - 1)))
          = 6 * (L * √L / 2 ^ 44) := by
        simp only [Scheme.rings]
        push_cast
        field_simp
        norm_num
      exact e1.le) (by linarith) (c := c) f hsh (M := M + 1 / 2 ^ 900)
    (fun t p hp => le_trans (hM t p hp) (by linarith [show (0 : ℝ) ≤ 1 / 2 ^ 900 by positivity]))
    (by linarith) hf hre
  refine ⟨out, eo, fun el m e0 e1 hm => le_trans (ho el m e0 e1 hm) ?_⟩
  have he := elfactor_nonneg el
  have hsm := elfactor_small e0 e1 hL1
  rw [show √((2 * (el : ℝ) + 1) / (4 * Real.pi)) = elfactor el from rfl,
    show (L : ℝ) * √L / 2 ^ 41 = 8 * (L * √L / 2 ^ 44) by ring,
    show (L : ℝ) / 2 ^ 45 = 1 / 2 * (L / 2 ^ 44) by ring]
  have htin : (1 / 2 ^ 880 : ℝ) + 1 / 2 ^ 900 ≤ 1 / 2 ^ 800 := by
    have t1 : (1 / 2 ^ 880 : ℝ) ≤ 1 / 2 ^ 801 :=
      one_div_le_one_div_of_le (by positivity) (pow_le_pow_right₀ (by norm_num) (by norm_num))
    have t2 : (1 / 2 ^ 900 : ℝ) ≤ 1 / 2 ^ 801 :=
      one_div_le_one_div_of_le (by positivity) (pow_le_pow_right₀ (by norm_num) (by norm_num))
    have t3 : (1 / 2 ^ 801 : ℝ) + 1 / 2 ^ 801 = 1 / 2 ^ 800 := by
      rw [pow_succ]; field_simp; norm_num
    linarith
  generalize hE : (L : ℝ) * √L / 2 ^ 44 = E at *
  have hb : 4 * Real.pi * (6 * E + 1 / 2 * (L / 2 ^ 44)) + 3 * (6 * E) ≤ 4 * Real.pi * (8 * E) := by
    nlinarith
  have hx : 0 ≤ elfactor el * (M + 1 / 2 ^ 900) := mul_nonneg he (by positivity)
  have h1 := mul_le_mul_of_nonneg_left hb hx
  have h2 : 4 * Real.pi * elfactor el * (1 / 2 ^ 900) * (8 * E) ≤ 1 / 2 ^ 880 * 1 := by
    refine mul_le_mul hsm (by linarith) (by linarith) (by positivity)
  have e3 : elfactor el * (M + 1 / 2 ^ 900) * (4 * Real.pi * (8 * E))
      = 4 * Real.pi * elfactor el * (M * (8 * E)) + 4 * Real.pi * elfactor el * (1 / 2 ^ 900) * (8 * E) := by
    ring
  rw [mul_add (4 * Real.pi * elfactor el)]
  linarith

/-- The round trip on the Driscoll–Healy grid with kernels and weights near the exact ones. -/
theorem precomputeRoundTripF_dh (F : FftLib) {L spin : ℤ} (hL : 1 ≤ L)
    (hL1 : L ≤ 2 ^ 26) {reality : Bool} (hr : reality = true → spin = 0) {Ki Kf : ℤ → ℤ → ℤ → ℝ}
    {w' : ℤ → ℝ}
    (hi : KernelNearF Ki L spin (Scheme.dh.rings L 0) reality (Scheme.dh.theta (fun _ _ => 0) L 0)
      (6 * (L * √L / 2 ^ 44)))
    (h : KernelNearF Kf L spin (Scheme.dh.rings L 0) reality (Scheme.dh.theta (fun _ _ => 0) L 0)
      (6 * (L * √L / 2 ^ 44)))
    (hw : ∀ t, 0 ≤ t → t < Scheme.dh.rings L 0 →
      |w' t - quad_weights_dh L t| ≤ 192 * √(L : ℝ) / 2 ^ 50 / (2 * L - 1))
    (flm : ℤ → ℤ → ℂ) (hre : reality = true → ∀ el, 0 ≤ el → el < L → (flm el (L - 1)).im = 0) :
    ∃ f out, precomputeInverseF F (.d2 L (2 * L - 1) flm) (.d3 (Scheme.dh.rings L 0) L (mDim L reality) Ki)
        L sDH reality spin = .ok f ∧
      precomputeForwardF F f (.d3 (Scheme.dh.rings L 0) L (mDim L reality)
        (fun t el j => F.fl (Kf t el j * w' t))) L sDH reality spin = .ok (.d2 L (2 * L - 1) out) ∧
      ∀ el m, 0 ≤ el → el < L → |m| < L → ‖out el (m + L - 1)
          - (if |spin| ≤ el ∧ |m| ≤ el then effCoeffs flm L reality el m else 0)‖
        ≤ 4 * Real.pi * √((2 * (el : ℝ) + 1) / (4 * Real.pi))
            * (coeffSize L (effCoeffs flm L reality) * (L * √L / 2 ^ 39)) + 1 / 2 ^ 700 := by
  obtain ⟨s1, s2, s3⟩ := sizeE hL hL1
  obtain ⟨f, e2, e3, e4, hf⟩ := precomputeInverseF_uniform F (fun _ _ => 0) (σ := .dh) (by simp) hL hL1 hr
    hi flm hre
  have hM : ∀ t p, Scheme.dh.Has L 0 t p → ‖f.get2 t p‖
      ≤ coeffSize L (effCoeffs flm L reality) + (L * √L / 2 ^ 41 * coeffSize L (effCoeffs flm L reality)
        + 1 / 2 ^ 900) := by
    intro t p hp
    have h1 := hf t p hp
    have h2 := norm_le_norm_add_norm_sub' (f.get2 t p) (harmonicSum 0 L spin (effCoeffs flm L reality)
      (Scheme.dh.theta (fun _ _ => 0) L 0 t) (Scheme.dh.phi L 0 t p))
    have h3 := harmonicSum_le L spin (effCoeffs flm L reality)
      (Scheme.dh.theta (fun _ _ => 0) L 0 t) (Scheme.dh.phi L 0 t p)
    linarith
  obtain ⟨out, e7, ho⟩ := precomputeForwardF_dh F (fun _ _ => 0) hL hL1 hr h hw
    (effCoeffs flm L reality) f _ _ e3 hM hf (fun h => ⟨by
      unfold effCoeffs
      rw [if_pos h]
      exact realCoeffs_real _ fun l h0 h1 => by
        have := hre h l h0 h1
        rwa [show (0 : ℤ) + L - 1 = L - 1 by ring], fun t p _ => e4 h t p⟩)
  refine ⟨f, out, e2, e7, fun el m e0 e1 hm => le_trans (ho el m e0 e1 hm) ?_⟩
  have he := elfactor_nonneg el
  have hsm := elfactor_small e0 e1 hL1
  have hS0 : 0 ≤ coeffSize L (effCoeffs flm L reality) := by
    unfold coeffSize
    exact Finset.sum_nonneg fun l _ => Finset.sum_nonneg fun m _ =>
      mul_nonneg (Real.sqrt_nonneg _) (norm_nonneg _)
  rw [show √((2 * (el : ℝ) + 1) / (4 * Real.pi)) = elfactor el from rfl,
    show (L : ℝ) * √L / 2 ^ 41 = 8 * (L * √L / 2 ^ 44) by ring,
    show (L : ℝ) * √L / 2 ^ 39 = 32 * (L * √L / 2 ^ 44) by ring]
  generalize (L : ℝ) * √L / 2 ^ 44 = E at *
  generalize coeffSize L (effCoeffs flm L reality) = S at *
  have hpe : 0 ≤ 4 * Real.pi * elfactor el := mul_nonneg (by positivity) he
  have hSE : 0 ≤ S * E := mul_nonneg hS0 s1
  have hSEE : S * E * E ≤ S * E * (1 / 32) := mul_le_mul_of_nonneg_left s2 hSE
  have h1 : (S + (8 * E * S + 1 / 2 ^ 900)) * (8 * E) + (8 * E * S + 1 / 2 ^ 900)
      ≤ S * (32 * E) + 2 * (1 / 2 ^ 900) := by
    have ht : (0 : ℝ) ≤ 1 / 2 ^ 900 := by positivity
    have ht2 : (1 / 2 ^ 900 : ℝ) * (8 * E) ≤ 1 / 2 ^ 900 * 1 :=
      mul_le_mul_of_nonneg_left (by linarith) ht
    have e : (S + (8 * E * S + 1 / 2 ^ 900)) * (8 * E) + (8 * E * S + 1 / 2 ^ 900)
      = 16 * (S * E) + 64 * (S * E * E) + 1 / 2 ^ 900 * (8 * E) + 1 / 2 ^ 900 := by ring
    rw [e, show S * (32 * E) = 32 * (S * E) by ring]
    linarith
  have h2 := mul_le_mul_of_nonneg_left h1 hpe
  have e3 : 4 * Real.pi * elfactor el * (S * (32 * E) + 2 * (1 / 2 ^ 900))
      = 4 * Real.pi * elfactor el * (S * (32 * E)) + 2 * (4 * Real.pi * elfactor el * (1 / 2 ^ 900)) := by
    ring
  have htin : 2 * (1 / 2 ^ 880 : ℝ) + 1 / 2 ^ 800 ≤ 1 / 2 ^ 700 := by
    have t1 : (1 / 2 ^ 880 : ℝ) ≤ 1 / 2 ^ 702 :=
      one_div_le_one_div_of_le (by positivity) (pow_le_pow_right₀ (by norm_num) (by norm_num))
    have t2 : (1 / 2 ^ 800 : ℝ) ≤ 1 / 2 ^ 702 :=
      one_div_le_one_div_of_le (by positivity) (pow_le_pow_right₀ (by norm_num) (by norm_num))
    have t3 : 4 * (1 / 2 ^ 702 : ℝ) = 1 / 2 ^ 700 := by
      rw [pow_add 2 700 2]; field_simp; norm_num
    have t4 : (0 : ℝ) ≤ 1 / 2 ^ 702 := by positivity
    linarith
  linarith

end S2fft
