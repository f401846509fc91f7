import Verif.Props.C49
import Verif.Props.C24
import Verif.Lemmas.ResampledForward

/-! # C49: the forward transform from the grids that are resampled first -/

namespace S2fft
open Spec

/-- The forward transform from the grids of McEwen–Wiaux, of samples that are those of an expansion up to
`η` and at most `M` in size: every coefficient is that of the expansion up to
`4π √((2l+1)/(4π)) (M L^(3/2) / 2³⁵ + 68 η)`. The code first resamples the signal, with five Fourier
transforms, to a grid of twice the band-limit, and computes the weights of that grid by another. -/
theorem C49_forward_mw (F : FftLib) (lg nodes : ℤ → ℤ → ℝ) (σ : Scheme) (hσ : σ = .mw ∨ σ = .mwss)
    (L spin : ℤ) (hL : 1 ≤ L) (hL1 : L ≤ 2 ^ 26) (hsp : |spin| < L) (reality : Bool)
    (hr : reality = true → spin = 0) (c : ℤ → ℤ → ℂ) (f : Nd ℂ) (M η : ℝ)
    (hsh : f.shape = σ.shape L 0) (hM : ∀ t p, σ.Has L 0 t p → ‖f.get2 t p‖ ≤ M)
    (hf : ∀ t p, σ.Has L 0 t p → ‖f.get2 t p - harmonicSum 0 L spin c
      (σ.theta nodes L 0 t) (σ.phi L 0 t p)‖ ≤ η)
    (hre : reality = true → RealHarmonics c 0 L) :
    ∃ K out, spinSphericalKernelF F lg (quadWeightsTransformF F L) L spin reality σ.name true = .ok K ∧
      forwardTransformF F f K L σ.name reality spin = .ok (.d2 L (2 * L - 1) out) ∧
      ∀ el m, 0 ≤ el → el < L → |m| < L →
        ‖out el (m + L - 1) - (if |spin| ≤ el ∧ |m| ≤ el then c el m else 0)‖
          ≤ 4 * Real.pi * √((2 * (el : ℝ) + 1) / (4 * Real.pi)) * (M * (L * √L / 2 ^ 35) + 68 * η)
            + 1 / 2 ^ 800 := by
  have hR : σ.Resampled := hσ
  have hv : σ.Valid L 0 := ⟨hL, fun h => by subst h; simp at hσ⟩
  obtain ⟨K, e, hK⟩ := spinSphericalKernelF_near F lg nodes (quadWeightsTransformF F L)
    (σ := σ) (s := σ.name) (n := 0) (by tauto) (lower_name σ) hv hL1 (covers_sqrt hL hL1) hsp
    reality true
  rw [effReality_eq hr] at e hK
  have ekr : kRings σ L 0 true = 2 * L + 1 := by
    unfold kRings innerRings; rw [if_pos rfl, if_pos hR]
  have ekt : kTheta nodes σ L 0 true = innerTheta nodes σ L 0 := by unfold kTheta; rw [if_pos rfl]
  rw [ekr] at e hK
  rw [ekt] at hK
  rw [if_pos rfl] at e
  refine ⟨_, precomputeFlmF F (precomputeFftF F (resF F σ L f.get2 spin) sMWSS (2 * L) reality)
    (fun t el j => F.fl (K t el j * quadWeightsTransformF F L t)) L (2 * L + 1) reality spin, e, ?_,
    fun el m e0 e1 hm => ?_⟩
  · have hfw : forwardTransformF F f (.d3 (2 * L + 1) L (mDim L reality)
        (fun t el j => F.fl (K t el j * quadWeightsTransformF F L t))) L σ.name reality spin
        = precomputeForwardF F (.d2 (2 * L + 1) (2 * L) (resF F σ L f.get2 spin))
          (.d3 (2 * L + 1) L (mDim L reality)
        (fun t el j => F.fl (K t el j * quadWeightsTransformF F L t))) L sMWSS reality spin := by
      unfold forwardTransformF resampleF
      rcases hσ with rfl | rfl
      · obtain ⟨v, rfl⟩ := Nd.eq_d2 (by simp only [Scheme.rings]; omega) hsh
        rw [if_pos (by decide)]
        rfl
      · obtain ⟨v, rfl⟩ := Nd.eq_d2 (by simp only [Scheme.rings]; omega) hsh
        rw [if_neg (by rw [lower_name]; decide), if_pos (by decide)]
        rfl
    rw [hfw]
    unfold precomputeForwardF
    rw [if_neg (by decide)]
    simp only
    rw [if_neg (by simp), if_neg (by simp [Nd.shape])]
    rfl
  · exact forwardF_resampled F nodes hσ hL hL1 hr (resF_near F hR hL hL1)
      (quadWeightsTransformF_near F hR hL hL1) hK hM hf hre e0 e1 hm

/-- The round trip on the grids of McEwen–Wiaux: each coefficient comes back up to
`4π √((2l+1)/(4π)) L^(3/2) / 2³³` times the size of the coefficients. -/
theorem C49_round_trip_mw (F : FftLib) (lg : ℤ → ℤ → ℝ) (w : ℤ → ℝ) (σ : Scheme)
    (hσ : σ = .mw ∨ σ = .mwss) (L spin : ℤ) (hL : 1 ≤ L) (hL1 : L ≤ 2 ^ 26) (hsp : |spin| < L)
    (reality : Bool) (hr : reality = true → spin = 0) (flm : ℤ → ℤ → ℂ)
    (hre : reality = true → ∀ el, 0 ≤ el → el < L → (flm el (L - 1)).im = 0) :
    ∃ Ki Kf f out, spinSphericalKernelF F lg w L spin reality σ.name false = .ok Ki ∧
      spinSphericalKernelF F lg (quadWeightsTransformF F L) L spin reality σ.name true = .ok Kf ∧
      precomputeInverseF F (.d2 L (2 * L - 1) flm) Ki L σ.name reality spin = .ok f ∧
      forwardTransformF F f Kf L σ.name reality spin = .ok (.d2 L (2 * L - 1) out) ∧
      ∀ el m, 0 ≤ el → el < L → |m| < L → ‖out el (m + L - 1)
          - (if |spin| ≤ el ∧ |m| ≤ el then effCoeffs flm L reality el m else 0)‖
        ≤ 4 * Real.pi * √((2 * (el : ℝ) + 1) / (4 * Real.pi))
            * (coeffSize L (effCoeffs flm L reality) * (L * √L / 2 ^ 33)) + 1 / 2 ^ 700 := by
  obtain ⟨s1, s2, s3⟩ := sizeE hL hL1
  obtain ⟨Ki, f, e1, e2, e3, -, hf⟩ := C49_inverse F lg (fun _ _ => 0) w σ (by tauto) L spin hL hL1 hsp
    reality hr flm hre
  have hM : ∀ t p, σ.Has L 0 t p → ‖f.get2 t p‖
      ≤ coeffSize L (effCoeffs flm L reality) + (L * √L / 2 ^ 41 * coeffSize L (effCoeffs flm L reality)
        + 1 / 2 ^ 900) := by
    intro t p hp
    have h1 := hf t p hp
    have h2 := norm_le_norm_add_norm_sub' (f.get2 t p) (harmonicSum 0 L spin (effCoeffs flm L reality)
      (σ.theta (fun _ _ => 0) L 0 t) (σ.phi L 0 t p))
    have h3 := harmonicSum_le L spin (effCoeffs flm L reality)
      (σ.theta (fun _ _ => 0) L 0 t) (σ.phi L 0 t p)
    linarith
  obtain ⟨Kf, out, e6, e7, ho⟩ := C49_forward_mw F lg (fun _ _ => 0) σ hσ L spin hL hL1 hsp reality hr
    (effCoeffs flm L reality) f _ _ e3 hM hf (fun h => by
      unfold effCoeffs
      rw [if_pos h]
      exact realCoeffs_real _ fun l h0 h1 => by
        have := hre h l h0 h1
        rwa [show (0 : ℤ) + L - 1 = L - 1 by ring])
  refine ⟨Ki, Kf, f, out, e1, e6, e2, e7, fun el m e0 e1 hm => le_trans (ho el m e0 e1 hm) ?_⟩
  exact roundTrip_resampled hL hL1 e0 e1 (coeffSize_nonneg L _)

/-- A floating point library as assumed, and coefficients of a signal of spin 2. -/
example := C49_round_trip_mw exactFftLib (fun _ _ => 0) (fun _ => 0) .mw (by simp) 16 2 (by norm_num)
  (by norm_num) (by norm_num) false (by simp) (fun l m => l + m * Complex.I) (by simp)

/-- A real signal. -/
example := C49_round_trip_mw exactFftLib (fun _ _ => 0) (fun _ => 0) .mwss (by simp) 1024 0 (by norm_num)
  (by norm_num) (by norm_num) true (by simp) (fun l m => (l + m : ℝ))
  (by intro _ l _ _; exact Complex.ofReal_im _)

/-- `C49_round_trip_gl` on the Gauss–Legendre grid with exact tables, which exist. -/
example : True := by
  obtain ⟨nodes, _, h⟩ := C24_gl_tables
  have := C49_round_trip_gl exactFftLib nodes nodes (glWeights nodes) (fun _ => 0) (glWeights nodes 64) 64 1
    (by norm_num) (by norm_num) (h 64 (by norm_num)).1 (by norm_num) false (by simp) (1 / 2 ^ 48) (1 / 2 ^ 48)
    (fun t _ _ => by show |Real.arccos _ - Real.arccos _| ≤ _; simp) (by norm_num)
    (fun t _ _ => by simp) (by norm_num) (by norm_num)
    (fun l m => l + m * Complex.I) (by simp)
  trivial

end S2fft
