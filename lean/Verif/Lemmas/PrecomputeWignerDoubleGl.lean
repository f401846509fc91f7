import Verif.Lemmas.PrecomputeWignerDoubleDh
import Verif.Lemmas.PrecomputeWignerDoubleInverse
import Verif.Lemmas.WignerResampledForward

/-! # The Wigner transforms on the Gauss–Legendre grid in double precision, for any kernels near the exact
ones -/

namespace S2fft
open Spec

/-- The colatitudes of the kernel. -/
theorem kernelThetasF_gl (F : DoubleLib) (lg : ℤ → ℤ → ℝ) (L : ℤ) (forward : Bool) :
    kernelThetasF F lg L sGL forward = .ok (sGL, L, fun t => F.arccos (lg L (L - 1 - t))) := by
  unfold kernelThetasF
  rw [if_neg (by rintro ⟨-, h | h⟩ <;> revert h <;> decide)]
  unfold thetasF
  rw [if_pos (by rfl)]
  rfl

/-- An angle near one between `0` and `π`. -/
theorem arccos_le_four {x y τ : ℝ} {L : ℤ} (hL : 1 ≤ L) (h : |y - Real.arccos x| ≤ τ)
    (hτ : L * τ ≤ 1 / 32) : |y| ≤ 4 := by
  have hL' : (1 : ℝ) ≤ L := by exact_mod_cast hL
  have h2 := Real.arccos_le_pi x
  have h4 := abs_sub_abs_le_abs_sub y (Real.arccos x)
  rw [abs_of_nonneg (Real.arccos_nonneg x)] at h4
  have h5 := Real.pi_lt_d2
  have h6 : 0 ≤ τ := (abs_nonneg _).trans h
  nlinarith

theorem WDlNear.mono {dl : ℤ → ℤ → ℤ → ℤ → ℝ} {L n0 nd nt : ℤ} {θ : ℤ → ℝ} {ε ε' : ℝ} {l : ℤ}
    (h : WDlNear dl L n0 nd nt θ ε l) (hε : ε ≤ ε') : WDlNear dl L n0 nd nt θ ε' l :=
  fun k t el m k0 k1 t0 t1 e0 e1 hm => (h k t el m k0 k1 t0 t1 e0 e1 hm).trans hε

/-- The kernel of the inverse transform. -/
theorem WDlNear.inverse (F : DoubleLib) {dl : ℤ → ℤ → ℤ → ℤ → ℝ} {L n0 nd nt : ℤ} {θ : ℤ → ℝ} {E : ℝ}
    (hL1 : L ≤ 2 ^ 26) (h : WDlNear dl L n0 nd nt θ (5 * E) L) (hE0 : 1 / 2 ^ 44 ≤ E) (hE1 : E ≤ 1 / 16) :
    WKNear (fun k t el j => ((F.fl (dl k t el j * degreeWeightF F el) : ℝ) : ℂ)) L n0 nd nt θ (6 * E) := by
  intro k t el m k0 k1 t0 t1 e0 e1 hm
  have h2 := h k t el m k0 k1 t0 t1 e0 e1 hm
  rw [← Complex.ofReal_sub, Complex.norm_real, Real.norm_eq_abs]
  refine (degreeF_entry F e0 (by omega) h2 (wignerd_abs_le_one _ _ _ _) (by linarith)).trans ?_
  refine mul_le_mul_of_nonneg_left ?_ (degreeWeight_nonneg e0)
  have : (4 / 2 ^ 50 : ℝ) ≤ 1 / 2 ^ 44 := by norm_num
  linarith

/-- The kernels in terms of planes near the Wigner functions. -/
theorem wignerKernelF_gl (F : FftLib) (lg nodes : ℤ → ℤ → ℝ) (logL : ℝ) (w : ℤ → ℝ) {L N : ℤ} {E τ : ℝ}
    (hL1 : L ≤ 2 ^ 26) (h1 : 1 ≤ N) (hN : N ≤ L) (hE : Covers L E) (hE0 : 0 ≤ E) (reality forward : Bool)
    {mode : PyStr} (hm : ModeOk .gl L mode)
    (hτ : ∀ t, 0 ≤ t → t < L →
      |F.arccos (lg L (L - 1 - t)) - Real.arccos (nodes L (L - 1 - t))| ≤ τ) (hτ1 : L * τ ≤ 1 / 32) :
    ∃ dl, wignerKernelF F lg logL w L N reality sGL forward mode
        = .ok ⟨nDim N reality, L, L, 2 * L - 1, fun k t el j =>
          ((if forward then F.fl (F.fl (dl k t el j * w t) * gammaWeightF F.toDoubleLib N)
            else F.fl (dl k t el j * degreeWeightF F.toDoubleLib el) : ℝ) : ℂ)⟩ ∧
      WDlNear dl L (nFirst N reality) (nDim N reality) L (Scheme.gl.theta nodes L 0) (5 * (E + L * τ)) L := by
  have hL : 1 ≤ L := h1.trans hN
  have hL' : (1 : ℝ) ≤ L := by exact_mod_cast hL
  have hτ0 : 0 ≤ τ := le_trans (abs_nonneg _) (hτ 0 le_rfl (by omega))
  obtain ⟨μ, eμ, rfl | ⟨-, h, -⟩⟩ := chooseModeF_ok F.toDoubleLib logL (lower_name .gl) (N := N) hm
  · refine ⟨_, ?_, (wignerDirectF_near F.toDoubleLib (θ := Scheme.gl.theta nodes L 0)
      (θ' := fun t => F.arccos (lg L (L - 1 - t))) hL hL1 hE
      (fun t t0 t1 => arccos_le_four hL (hτ t t0 t1) hτ1) hτ).mono (by
        have : 0 ≤ (L : ℝ) * τ := by positivity
        linarith)⟩
    unfold wignerKernelF
    rw [show chooseModeF F.toDoubleLib logL L N sGL mode = .ok mdDirect from eμ]
    simp only [bind, Except.bind]
    rw [kernelThetasF_gl]
    simp only
    rw [if_pos (by decide), wignerColumns_ok hN]
    simp only [pure, Except.pure]
    cases forward <;> rfl
  · exact absurd rfl h

/-- The forward transform from the Gauss–Legendre grid, with planes correct up to `5 E` and weights up to
`δ`. -/
theorem precomputeWignerForwardF_gl (F : FftLib) {nodes weights : ℤ → ℤ → ℝ} {L N : ℤ} (hL1 : L ≤ 2 ^ 26)
    (h1 : 1 ≤ N) (hN : N ≤ L) (hG : GlExact nodes weights L) (reality : Bool)
    {dl : ℤ → ℤ → ℤ → ℤ → ℝ} {w' : ℤ → ℝ} {E δ : ℝ} (hE0 : L * √L / 2 ^ 44 ≤ E) (hE1 : E ≤ 1 / 16)
    (hd : WDlNear dl L (nFirst N reality) (nDim N reality) L (Scheme.gl.theta nodes L 0) (5 * E) L)
    (hw : ∀ t, 0 ≤ t → t < L → |w' t - weights L t| ≤ δ) (hδ : 1 / 2 ^ 150 ≤ δ)
    (hδ1 : 2 * L * L * δ ≤ 1)
    (c : ℤ → ℤ → ℤ → ℂ) (f : Nd ℂ) (M η : ℝ) (hsh : f.shape = (2 * N - 1) :: Scheme.gl.shape L 0)
    (hM : ∀ g t p, 0 ≤ g → g < 2 * N - 1 → Scheme.gl.Has L 0 t p → ‖f.get3 g t p‖ ≤ M)
    (hf : ∀ g t p, 0 ≤ g → g < 2 * N - 1 → Scheme.gl.Has L 0 t p → ‖f.get3 g t p
      - wignerSum 0 L N c (Scheme.gl.phi L 0 t p) (Scheme.gl.theta nodes L 0 t) (gammaAt N g)‖ ≤ η)
    (hre : reality = true → RealWigner c 0 L) :
    ∃ out, precomputeWignerForwardF F f ⟨nDim N reality, L, L, 2 * L - 1, fun k t el j =>
        ((F.fl (F.fl (dl k t el j * w' t) * gammaWeightF F.toDoubleLib N) : ℝ) : ℂ)⟩ L N sGL reality
        = .ok (.d3 (2 * N - 1) L (2 * L - 1) out) ∧
      ∀ n el m, |n| < N → 0 ≤ el → el < L → |m| < L →
        ‖out (N - 1 + n) el (m + L - 1) - (if |n| ≤ el ∧ |m| ≤ el then c n el m else 0)‖
          ≤ 8 * Real.pi ^ 2 * (M * (16 * E + L * L * δ) + η) + 1 / 2 ^ 800 := by
  have hL : 1 ≤ L := h1.trans hN
  have hL' : (1 : ℝ) ≤ L := by exact_mod_cast hL
  have h1' : (1 : ℝ) ≤ N := by exact_mod_cast h1
  obtain ⟨s1, s2, s3⟩ := sizeE hL hL1
  obtain ⟨u0, u1, hq⟩ := gammaStep_small h1 hN hL1
  have hs1 : 1 ≤ √(L : ℝ) := by rw [Real.le_sqrt' (by norm_num)]; linarith
  have hn : (0 : ℝ) < 2 * L - 1 := by linarith
  have hL2 : (L : ℝ) ≤ 2 ^ 26 := by exact_mod_cast hL1
  have hE2 : 1 / 2 ^ 44 ≤ E :=
    le_trans (le_trans (div_le_div_of_nonneg_right hL' (by norm_num)) s3) hE0
  have htn := tn_pos
  have hh0 : Scheme.gl.Has L 0 0 0 :=
    ⟨le_rfl, by simp [Scheme.rings]; omega, le_rfl, by simp [Scheme.ringLen]; omega⟩
  have hM0 : 0 ≤ M := le_trans (norm_nonneg _) (hM 0 0 0 le_rfl (by omega) hh0)
  obtain ⟨a, rfl⟩ := Nd.eq_d3 (by omega) hsh
  have hδ0 : 0 ≤ δ := le_trans (by positivity) hδ
  have hR := ringRule_gl hL hG
  refine ⟨wignerFlmnF F (fun k t j => precomputeFftF F (wignerFbanF F a (2 * N - 1) reality k) sGL
      (2 * L - 1) false t j) (fun k t el j => ((F.fl (F.fl (dl k t el j * w' t)
      * gammaWeightF F.toDoubleLib N) : ℝ) : ℂ)) L N L reality, ?_, fun n el m hn e0 e1 hm => ?_⟩
  · unfold precomputeWignerForwardF wignerResampleF
    simp only [Scheme.rings]
    rw [if_neg (by decide), if_neg (by decide), if_neg (by decide)]
    simp only [bind, Except.bind]
    rw [if_neg (show ¬inHealpix sGL by decide), if_neg]
    · rfl
    · rw [fbanPlanes_eq h1]
      simp [mOffset, Scheme.ringLen, show sGL ≠ sMWSS by decide, show sGL ≠ sHP by decide]
  · have key := wignerFlmnF_full F (nt := L) (c := c) (reality := reality) hre (A := fun k t j =>
        precomputeFftF F (wignerFbanF F a (2 * N - 1) reality k) sGL (2 * L - 1) false t j)
      (K := fun k t el j => ((F.fl (F.fl (dl k t el j * w' t)
      * gammaWeightF F.toDoubleLib N) : ℝ) : ℂ)) (fun n el m n0 n1 e0 e1 m0 m1 => by
        have hp := fun t p (h : Scheme.gl.Has L 0 t p) => fbanF_near F h1 (a := a) (c := c) (L := L)
          (i := t) (j := p) (θ := Scheme.gl.theta nodes L 0 t) (φ := Scheme.gl.phi L 0 t p) hre
          (fun g g0 g1 => hM g t p g0 g1 h) (fun g g0 g1 => hf g t p g0 g1 h) n0 n1
        have hk : n - nFirst N reality < nDim N reality := by rw [nDim_eq]; omega
        refine planeCoeff_rule F hL hL1 h1 hR (c := c) (n := n)
          (f := wignerFbanF F a (2 * N - 1) reality (n - nFirst N reality))
          (η := η + ((2 * N - 1) / 2 ^ 50 * M + 1 / 2 ^ 1000))
          (M := M + ((2 * N - 1) / 2 ^ 50 * M + 1 / 2 ^ 1000) + 1 / 2 ^ 900)
          (ε := 6 * E) (δ := δ) (Δ := 2 * (L * L * δ))
          (le_add_of_nonneg_left (by positivity)) (fun t p h => (hp t p h).1)
          (fun t p h => (hp t p h).2.trans (mul_le_mul_of_nonneg_left
            (le_add_of_nonneg_right (by positivity)) (by linarith)))
          (le_trans (one_div_le_one_div_of_le (by positivity)
            (pow_le_pow_right₀ (by norm_num) (by norm_num))) hδ)
          ?_ (fun t t0 t1 => ?_) e0 e1 m0 m1
        · simp only [Scheme.rings]
          have : 0 ≤ (L : ℝ) * δ := by positivity
          nlinarith
        · have hx := hd (n - nFirst N reality) t el m (by omega) hk t0 t1 e0 e1 (abs_lt.2 ⟨m0, m1⟩)
          rw [show nFirst N reality + (n - nFirst N reality) = n by ring] at hx
          exact gammaF_entry F.nearest hx (wignerd_abs_le_one _ _ _ _) hE2 hE1 hq
            (gammaWeightF_near F.toDoubleLib h1 (by omega))
            (abs_of_nonneg (hR.nonneg t t0 t1)).le (hw t t0 t1) hδ) hn e0 e1 hm
    refine key.trans ?_
    have hpi := Real.pi_gt_three
    have hpi4 := Real.pi_le_four
    rw [show (L : ℝ) / 2 ^ 45 = 1 / 2 * (L / 2 ^ 44) by ring]
    have htin : 2048 * (1 / 2 ^ 900 : ℝ) ≤ 1 / 2 ^ 800 := by
      have t1 : (1 / 2 ^ 900 : ℝ) ≤ 1 / 2 ^ 811 :=
        one_div_le_one_div_of_le (by positivity) (pow_le_pow_right₀ (by norm_num) (by norm_num))
      have t3 : 2048 * (1 / 2 ^ 811 : ℝ) = 1 / 2 ^ 800 := by
        rw [pow_add 2 800 11]; field_simp; norm_num
      linarith
    have ht : (1 / 2 ^ 1000 : ℝ) ≤ 1 / 2 ^ 900 :=
      one_div_le_one_div_of_le (by positivity) (pow_le_pow_right₀ (by norm_num) (by norm_num))
    have ht0 : (0 : ℝ) ≤ 1 / 2 ^ 1000 := by positivity
    have hT0 : (0 : ℝ) ≤ 1 / 2 ^ 900 := by positivity
    refine le_trans ?_ (add_le_add le_rfl htin)
    generalize (1 / 2 ^ 1000 : ℝ) = ζ at *
    generalize (1 / 2 ^ 900 : ℝ) = τ at *
    have hy0 : 0 ≤ (L : ℝ) / 2 ^ 44 := by positivity
    generalize (L : ℝ) / 2 ^ 44 = y at *
    generalize (L : ℝ) * √L / 2 ^ 44 = E₀ at *
    generalize (2 * (N : ℝ) - 1) / 2 ^ 50 = u at *
    have hd0 : 0 ≤ (L : ℝ) * L * δ := by positivity
    have hd1 : (L : ℝ) * L * δ ≤ 1 / 2 := by linarith
    generalize (L : ℝ) * L * δ = z at *
    have hEp : 0 ≤ E := s1.trans hE0
    have a1 : 2 * Real.pi * (4 * Real.pi * (6 * E + 1 / 2 * y) + 3 * (2 * z))
        ≤ 8 * Real.pi ^ 2 * (7 * E + 1 / 2 * z) := by
      have b1 : Real.pi * y ≤ Real.pi * E := mul_le_mul_of_nonneg_left (s3.trans hE0) (by linarith)
      have b2 : 3 * z ≤ Real.pi * z := mul_le_mul_of_nonneg_right hpi.le hd0
      have b4 : 0 ≤ Real.pi * E := mul_nonneg (by linarith) hEp
      have b3 : 4 * Real.pi * (6 * E + 1 / 2 * y) + 3 * (2 * z) ≤ Real.pi * (28 * E + 2 * z) := by
        linarith
      have := mul_le_mul_of_nonneg_left b3 (by linarith : 0 ≤ 2 * Real.pi)
      refine this.trans (le_of_eq (by ring))
    have a2 : M + (u * M + ζ) + τ ≤ 33 / 32 * M + 2 * τ := by
      have : u * M ≤ 1 / 32 * M := mul_le_mul_of_nonneg_right (by linarith) hM0
      linarith
    have a3 : 2 * Real.pi * (M + (u * M + ζ) + τ) * (4 * Real.pi * (6 * E + 1 / 2 * y) + 3 * (2 * z))
        ≤ (33 / 32 * M + 2 * τ) * (8 * Real.pi ^ 2 * (7 * E + 1 / 2 * z)) := by
      rw [show 2 * Real.pi * (M + (u * M + ζ) + τ) * (4 * Real.pi * (6 * E + 1 / 2 * y) + 3 * (2 * z))
        = (M + (u * M + ζ) + τ) * (2 * Real.pi * (4 * Real.pi * (6 * E + 1 / 2 * y) + 3 * (2 * z))) by ring]
      refine mul_le_mul a2 a1 ?_ (by positivity)
      exact mul_nonneg (by linarith) (add_nonneg (mul_nonneg (by linarith) (by linarith)) (by linarith))
    have a4 : u * M ≤ E / 32 * M := mul_le_mul_of_nonneg_right (by linarith) hM0
    have a5 : τ * E ≤ τ * (1 / 16) := mul_le_mul_of_nonneg_left hE1 hT0
    have a5' : τ * z ≤ τ * (1 / 2) := mul_le_mul_of_nonneg_left hd1 hT0
    have hp2 : Real.pi ^ 2 ≤ 16 := by nlinarith
    have a6 : (33 / 32 * M + 2 * τ) * (7 * E + 1 / 2 * z) + (η + (u * M + ζ))
        ≤ M * (16 * E + z) + η + 3 * τ := by
      have b1 : 0 ≤ M * E := mul_nonneg hM0 hEp
      have b2 : 0 ≤ M * z := mul_nonneg hM0 hd0
      linarith
    have a7 := mul_le_mul_of_nonneg_left a6 (by positivity : 0 ≤ 8 * Real.pi ^ 2)
    have a8 : 8 * Real.pi ^ 2 * (3 * τ) ≤ 384 * τ := by
      have := mul_le_mul_of_nonneg_right hp2 hT0
      linarith
    linarith

/-- The round trip, with planes correct up to `5 E` and weights up to `δ`. -/
theorem precomputeWignerRoundTripF_gl (F : FftLib) {nodes weights : ℤ → ℤ → ℝ} {L N : ℤ} (hL1 : L ≤ 2 ^ 26)
    (h1 : 1 ≤ N) (hN : N ≤ L) (hG : GlExact nodes weights L) (reality : Bool)
    {di df : ℤ → ℤ → ℤ → ℤ → ℝ} {w' : ℤ → ℝ} {E δ : ℝ} (hE0 : L * √L / 2 ^ 44 ≤ E) (hE1 : E ≤ 1 / 30)
    (hdi : WDlNear di L (nFirst N reality) (nDim N reality) L (Scheme.gl.theta nodes L 0) (5 * E) L)
    (hdf : WDlNear df L (nFirst N reality) (nDim N reality) L (Scheme.gl.theta nodes L 0) (5 * E) L)
    (hw : ∀ t, 0 ≤ t → t < L → |w' t - weights L t| ≤ δ) (hδ : 1 / 2 ^ 150 ≤ δ)
    (hδ1 : 2 * L * L * δ ≤ 1) (flmn : ℤ → ℤ → ℤ → ℂ) (hre : RealPlane flmn L N reality) :
    ∃ f out, precomputeWignerInverseF F (.d3 (2 * N - 1) L (2 * L - 1) flmn)
        ⟨nDim N reality, L, L, 2 * L - 1, fun k t el j =>
          ((F.fl (di k t el j * degreeWeightF F.toDoubleLib el) : ℝ) : ℂ)⟩ L N sGL reality = .ok f ∧
      precomputeWignerForwardF F f ⟨nDim N reality, L, L, 2 * L - 1, fun k t el j =>
        ((F.fl (F.fl (df k t el j * w' t) * gammaWeightF F.toDoubleLib N) : ℝ) : ℂ)⟩ L N sGL reality
        = .ok (.d3 (2 * N - 1) L (2 * L - 1) out) ∧
      ∀ n el m, |n| < N → 0 ≤ el → el < L → |m| < L → ‖out (N - 1 + n) el (m + L - 1)
          - (if |n| ≤ el ∧ |m| ≤ el then wignerCoeffs flmn L N reality n el m else 0)‖
        ≤ 8 * Real.pi ^ 2 * (so3CoeffSize L N reality flmn * (32 * E + 2 * (L * L * δ))) + 1 / 2 ^ 700 := by
  have hL : 1 ≤ L := h1.trans hN
  have hL' : (1 : ℝ) ≤ L := by exact_mod_cast hL
  obtain ⟨s1, s2, s3⟩ := sizeE hL hL1
  have hE2 : 1 / 2 ^ 44 ≤ E :=
    le_trans (le_trans (div_le_div_of_nonneg_right hL' (by norm_num)) s3) hE0
  have hS0 := so3CoeffSize_nonneg L N reality flmn
  obtain ⟨f, e2, e3, -, hf⟩ := precomputeWignerInverseF_near F (σ := .gl) (by decide) ⟨hL, by simp⟩ hL1 h1 hN
    flmn hre (θ := Scheme.gl.theta nodes L 0) (WDlNear.inverse F.toDoubleLib hL1 hdi hE2 (by linarith))
    (by linarith)
  have hf : ∀ g t p, 0 ≤ g → g < 2 * N - 1 → Scheme.gl.Has L 0 t p → ‖f.get3 g t p
        - wignerSum 0 L N (wignerCoeffs flmn L N reality) (Scheme.gl.phi L 0 t p)
          (Scheme.gl.theta nodes L 0 t) (gammaAt N g)‖
        ≤ 7 * E * so3CoeffSize L N reality flmn + 1 / 2 ^ 900 := fun g t p g0 g1 hp => by
    refine (hf g t p g0 g1 hp).trans (add_le_add (mul_le_mul_of_nonneg_right ?_ hS0) le_rfl)
    have : (L : ℝ) / 2 ^ 46 = 1 / 4 * (L / 2 ^ 44) := by ring
    linarith
  have hM : ∀ g t p, 0 ≤ g → g < 2 * N - 1 → Scheme.gl.Has L 0 t p → ‖f.get3 g t p‖
      ≤ so3CoeffSize L N reality flmn + (7 * E * so3CoeffSize L N reality flmn
        + 1 / 2 ^ 900) := fun g t p g0 g1 hp => by
    have h1 := hf g t p g0 g1 hp
    have h2 := norm_le_norm_add_norm_sub' (f.get3 g t p) (wignerSum 0 L N (wignerCoeffs flmn L N reality)
      (Scheme.gl.phi L 0 t p) (Scheme.gl.theta nodes L 0 t) (gammaAt N g))
    have h3 := wignerSum_le hre (Scheme.gl.phi L 0 t p) (Scheme.gl.theta nodes L 0 t) (gammaAt N g)
    linarith
  obtain ⟨out, e7, ho⟩ := precomputeWignerForwardF_gl F hL1 h1 hN hG reality hE0 (by linarith) hdf hw hδ hδ1
    (wignerCoeffs flmn L N reality) f _ _ e3 hM hf
    (fun h => by subst h; exact wignerCoeffs_real hre.origin)
  refine ⟨f, out, e2, e7, fun n el m hn e0 e1 hm => le_trans (ho n el m hn e0 e1 hm) ?_⟩
  have hp2 : 8 * Real.pi ^ 2 ≤ 128 := by nlinarith [Real.pi_le_four, Real.pi_pos]
  have htin : 512 * (1 / 2 ^ 900 : ℝ) + 1 / 2 ^ 800 ≤ 1 / 2 ^ 700 := by
    have t1 : (1 / 2 ^ 900 : ℝ) ≤ 1 / 2 ^ 710 :=
      one_div_le_one_div_of_le (by positivity) (pow_le_pow_right₀ (by norm_num) (by norm_num))
    have t2 : (1 / 2 ^ 800 : ℝ) ≤ 1 / 2 ^ 710 :=
      one_div_le_one_div_of_le (by positivity) (pow_le_pow_right₀ (by norm_num) (by norm_num))
    have t3 : 1024 * (1 / 2 ^ 710 : ℝ) = 1 / 2 ^ 700 := by
      rw [pow_add 2 700 10]; field_simp; norm_num
    have t4 : (0 : ℝ) ≤ 1 / 2 ^ 710 := by positivity
    linarith
  have ht : (0 : ℝ) ≤ 1 / 2 ^ 900 := by positivity
  have hδ0 : 0 ≤ δ := le_trans (by positivity) hδ
  have hd0 : 0 ≤ (L : ℝ) * L * δ := by positivity
  have hd1 : (L : ℝ) * L * δ ≤ 1 / 2 := by linarith
  have hEp : 0 ≤ E := s1.trans hE0
  generalize (1 / 2 ^ 900 : ℝ) = τ at *
  generalize (L : ℝ) * L * δ = z at *
  generalize so3CoeffSize L N reality flmn = S at *
  have hSE : 0 ≤ S * E := mul_nonneg hS0 hEp
  have hSz : 0 ≤ S * z := mul_nonneg hS0 hd0
  have hSEE : S * E * E ≤ S * E * (1 / 30) := mul_le_mul_of_nonneg_left (by linarith) hSE
  have hSEz : S * z * E ≤ S * z * (1 / 30) := mul_le_mul_of_nonneg_left (by linarith) hSz
  have h1 : (S + (7 * E * S + τ)) * (16 * E + z) + (7 * E * S + τ) ≤ S * (32 * E + 2 * z) + 4 * τ := by
    have ht2 : τ * (16 * E + z) ≤ τ * 3 := mul_le_mul_of_nonneg_left (by linarith) ht
    have e : (S + (7 * E * S + τ)) * (16 * E + z) + (7 * E * S + τ)
      = 23 * (S * E) + S * z + 112 * (S * E * E) + 7 * (S * z * E) + τ * (16 * E + z) + τ := by ring
    rw [e, show S * (32 * E + 2 * z) = 32 * (S * E) + 2 * (S * z) by ring]
    linarith
  have h2 := mul_le_mul_of_nonneg_left h1 (by positivity : 0 ≤ 8 * Real.pi ^ 2)
  have h3 := mul_le_mul_of_nonneg_right hp2 ht
  linarith

end S2fft
