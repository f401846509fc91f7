import Verif.Props.C62Wigner
import Verif.Lemmas.ResamplingJaxDouble
import Verif.Lemmas.ResampledForward
import Verif.Lemmas.WignerResampledForward

/-! # C62: the forward JAX transforms from the grids that are resampled first -/

namespace S2fft
open Spec

/-- The forward transform from the grids of McEwen–Wiaux, of samples that are those of an expansion up to
`η` and at most `M` in size: every coefficient is that of the expansion up to
`4π √((2l+1)/(4π)) (M L^(3/2) / 2³⁵ + 68 η)`. The code first resamples the signal, with five Fourier
transforms, to a grid of twice the band-limit, and computes the weights of that grid by another. -/
theorem C62_forward_mw (F : XlaLib) (fuse : ℤ → Bool) (foldw foldp : Bool) (lg nodes : ℤ → ℤ → ℝ)
    (σ : Scheme) (hσ : σ = .mw ∨ σ = .mwss) (L spin : ℤ) (hL : 1 ≤ L) (hL1 : L ≤ 2 ^ 26)
    (hsp : |spin| < L) (reality : Bool) (hr : reality = true → spin = 0) (c : ℤ → ℤ → ℂ) (f : Nd ℂ)
    (M η : ℝ) (hsh : f.shape = σ.shape L 0) (hM : ∀ t p, σ.Has L 0 t p → ‖f.get2 t p‖ ≤ M)
    (hf : ∀ t p, σ.Has L 0 t p → ‖f.get2 t p - harmonicSum 0 L spin c
      (σ.theta nodes L 0 t) (σ.phi L 0 t p)‖ ≤ η)
    (hre : reality = true → RealHarmonics c 0 L) :
    ∃ K out, spinSphericalKernelJ F lg (quadWeightsTransformJ F fuse foldw L) L spin reality σ.name true
        = .ok K ∧
      forwardTransformJ F foldp f K L σ.name reality spin = .ok (.d2 L (2 * L - 1) out) ∧
      ∀ el m, 0 ≤ el → el < L → |m| < L →
        ‖out el (m + L - 1) - (if |spin| ≤ el ∧ |m| ≤ el then c el m else 0)‖
          ≤ 4 * Real.pi * √((2 * (el : ℝ) + 1) / (4 * Real.pi)) * (M * (L * √L / 2 ^ 35) + 68 * η)
            + 1 / 2 ^ 800 := by
  have hR : σ.Resampled := hσ
  have hv : σ.Valid L 0 := ⟨hL, fun h => by subst h; simp at hσ⟩
  obtain ⟨K, e, hK⟩ := spinSphericalKernelJ_near F lg nodes (quadWeightsTransformJ F fuse foldw L)
    (σ := σ) (s := σ.name) (n := 0) (by tauto) (lower_name σ) hv hL1 (covers_sqrt hL hL1) hsp
    reality true
  rw [effReality_eq hr] at e hK
  have ekr : kRings σ L 0 true = 2 * L + 1 := by
    unfold kRings innerRings; rw [if_pos rfl, if_pos hR]
  have ekt : kTheta nodes σ L 0 true = innerTheta nodes σ L 0 := by unfold kTheta; rw [if_pos rfl]
  rw [ekr] at e hK
  rw [ekt] at hK
  rw [if_pos rfl] at e
  refine ⟨_, precomputeFlmF F.toFftLib
    (precomputeFftF F.toFftLib (resJ F foldp σ L f.get2 spin) sMWSS (2 * L) reality)
    (fun t el j => F.fl (K t el j * quadWeightsTransformJ F fuse foldw L t)) L (2 * L + 1) reality spin,
    e, ?_, fun el m e0 e1 hm => ?_⟩
  · have hfw : forwardTransformJ F foldp f (.d3 (2 * L + 1) L (mDim L reality)
        (fun t el j => F.fl (K t el j * quadWeightsTransformJ F fuse foldw L t))) L σ.name reality spin
        = precomputeForwardF F.toFftLib (.d2 (2 * L + 1) (2 * L) (resJ F foldp σ L f.get2 spin))
          (.d3 (2 * L + 1) L (mDim L reality)
        (fun t el j => F.fl (K t el j * quadWeightsTransformJ F fuse foldw L t))) L sMWSS reality spin := by
      unfold forwardTransformJ resampleJ
      rcases hσ with rfl | rfl
      · obtain ⟨v, rfl⟩ := Nd.eq_d2 (by simp only [Scheme.rings]; omega) hsh
        rw [if_pos (by decide)]
        rfl
      · obtain ⟨v, rfl⟩ := Nd.eq_d2 (by simp only [Scheme.rings]; omega) hsh
        rw [if_neg (by rw [lower_name]; decide), if_pos (by decide)]
        rfl
    rw [hfw]
    unfold precomputeForwardF
    rw [if_neg (by decide)]
    simp only
    rw [if_neg (by simp), if_neg (by simp [Nd.shape])]
    rfl
  · exact forwardF_resampled F.toFftLib nodes hσ hL hL1 hr (resJ_near F foldp hR hL hL1)
      (quadWeightsTransformJ_near F fuse foldw hR hL hL1) hK hM hf hre e0 e1 hm

/-- The round trip on the grids of McEwen–Wiaux: each coefficient comes back up to
`4π √((2l+1)/(4π)) L^(3/2) / 2³³` times the size of the coefficients. -/
theorem C62_round_trip_mw (F : XlaLib) (fuse : ℤ → Bool) (foldw foldp : Bool) (lg : ℤ → ℤ → ℝ)
    (w : ℤ → ℝ) (σ : Scheme) (hσ : σ = .mw ∨ σ = .mwss) (L spin : ℤ) (hL : 1 ≤ L) (hL1 : L ≤ 2 ^ 26)
    (hsp : |spin| < L) (reality : Bool) (hr : reality = true → spin = 0) (flm : ℤ → ℤ → ℂ)
    (hre : reality = true → ∀ el, 0 ≤ el → el < L → (flm el (L - 1)).im = 0) :
    ∃ Ki Kf f out, spinSphericalKernelJ F lg w L spin reality σ.name false = .ok Ki ∧
      spinSphericalKernelJ F lg (quadWeightsTransformJ F fuse foldw L) L spin reality σ.name true
        = .ok Kf ∧
      precomputeInverseF F.toFftLib (.d2 L (2 * L - 1) flm) Ki L σ.name reality spin = .ok f ∧
      forwardTransformJ F foldp f Kf L σ.name reality spin = .ok (.d2 L (2 * L - 1) out) ∧
      ∀ el m, 0 ≤ el → el < L → |m| < L → ‖out el (m + L - 1)
          - (if |spin| ≤ el ∧ |m| ≤ el then effCoeffs flm L reality el m else 0)‖
        ≤ 4 * Real.pi * √((2 * (el : ℝ) + 1) / (4 * Real.pi))
            * (coeffSize L (effCoeffs flm L reality) * (L * √L / 2 ^ 33)) + 1 / 2 ^ 700 := by
  obtain ⟨Ki, f, e1, e2, e3, -, hf⟩ := C62_inverse F lg (fun _ _ => 0) w σ (by tauto) L spin hL hL1 hsp
    reality hr flm hre
  have hM : ∀ t p, σ.Has L 0 t p → ‖f.get2 t p‖
      ≤ coeffSize L (effCoeffs flm L reality) + (L * √L / 2 ^ 41 * coeffSize L (effCoeffs flm L reality)
        + 1 / 2 ^ 900) := by
    intro t p hp
    have h1 := hf t p hp
    have h2 := norm_le_norm_add_norm_sub' (f.get2 t p) (harmonicSum 0 L spin (effCoeffs flm L reality)
      (σ.theta (fun _ _ => 0) L 0 t) (σ.phi L 0 t p))
    have h3 := harmonicSum_le L spin (effCoeffs flm L reality)
      (σ.theta (fun _ _ => 0) L 0 t) (σ.phi L 0 t p)
    linarith
  obtain ⟨Kf, out, e6, e7, ho⟩ := C62_forward_mw F fuse foldw foldp lg (fun _ _ => 0) σ hσ L spin hL hL1 hsp
    reality hr (effCoeffs flm L reality) f _ _ e3 hM hf (fun h => by
      unfold effCoeffs
      rw [if_pos h]
      exact realCoeffs_real _ fun l h0 h1 => by
        have := hre h l h0 h1
        rwa [show (0 : ℤ) + L - 1 = L - 1 by ring])
  refine ⟨Ki, Kf, f, out, e1, e6, e2, e7, fun el m e0 e1 hm => le_trans (ho el m e0 e1 hm) ?_⟩
  exact roundTrip_resampled hL hL1 e0 e1 (coeffSize_nonneg L _)

/-- The forward transform of a signal on the rotation group from the grids of McEwen–Wiaux: every
coefficient is that of the expansion up to `8π² (M L^(3/2) / 2³⁵ + 68 η)`. There are at least two directions:
for `N = 1` the code fails. -/
theorem C62_wigner_forward_mw (F : XlaLib) (fuse : ℤ → Bool) (foldw foldp : Bool) (lg nodes : ℤ → ℤ → ℝ)
    (logL : ℝ) (σ : Scheme) (hσ : σ = .mw ∨ σ = .mwss) (L N : ℤ) (hL1 : L ≤ 2 ^ 26) (hN2 : 2 ≤ N)
    (hN : N ≤ L) (reality : Bool) (mode : PyStr) (hm : ModeOk σ L mode) (c : ℤ → ℤ → ℤ → ℂ) (f : Nd ℂ)
    (M η : ℝ) (hsh : f.shape = (2 * N - 1) :: σ.shape L 0)
    (hM : ∀ g t p, 0 ≤ g → g < 2 * N - 1 → σ.Has L 0 t p → ‖f.get3 g t p‖ ≤ M)
    (hf : ∀ g t p, 0 ≤ g → g < 2 * N - 1 → σ.Has L 0 t p → ‖f.get3 g t p
      - wignerSum 0 L N c (σ.phi L 0 t p) (σ.theta nodes L 0 t) (gammaAt N g)‖ ≤ η)
    (hre : reality = true → RealWigner c 0 L) :
    ∃ K out, wignerKernelJ F lg logL (quadWeightsTransformJ F fuse foldw L) L N reality σ.name true mode
        = .ok K ∧
      precomputeWignerForwardJ F foldp f K L N σ.name reality = .ok (.d3 (2 * N - 1) L (2 * L - 1) out) ∧
      ∀ n el m, |n| < N → 0 ≤ el → el < L → |m| < L →
        ‖out (N - 1 + n) el (m + L - 1) - (if |n| ≤ el ∧ |m| ≤ el then c n el m else 0)‖
          ≤ 8 * Real.pi ^ 2 * (M * (L * √L / 2 ^ 35) + 68 * η) + 1 / 2 ^ 800 := by
  have h1 : 1 ≤ N := by omega
  have hL : 1 ≤ L := h1.trans hN
  have hR : σ.Resampled := hσ
  obtain ⟨a, rfl⟩ : ∃ a, f = .d3 (2 * N - 1) (σ.rings L 0) (σ.ringLen L 0 0) a := by
    rcases hσ with rfl | rfl <;> exact Nd.eq_d3 (by omega) hsh
  obtain ⟨dl, e, hd⟩ := wignerKernelJ_near F lg nodes logL (quadWeightsTransformJ F fuse foldw L) (σ := σ)
    (by tauto) hL hL1 h1 hN (covers_sqrt hL hL1) reality true hm
  have ekr : kRings σ L 0 true = 2 * L + 1 := by
    unfold kRings innerRings; rw [if_pos rfl, if_pos hR]
  have ekt : kTheta nodes σ L 0 true = innerTheta nodes σ L 0 := by unfold kTheta; rw [if_pos rfl]
  rw [ekr] at e hd
  rw [ekt] at hd
  simp only [if_true] at e
  refine ⟨_, wignerFlmnF F.toFftLib (fun k t j => precomputeFftF F.toFftLib
      (resJ F foldp σ L (wignerFbanF F.toFftLib a (2 * N - 1) reality k)
      (-(nFirst N reality + k))) sMWSS (2 * L) false t j)
      (fun k t el j => ((F.fl (F.fl (dl k t el j * quadWeightsTransformJ F fuse foldw L t)
      * gammaWeightF F.toDoubleLib N) : ℝ) : ℂ)) L N (2 * L + 1) reality, e, ?_, fun n el m hn e0 e1 hm => ?_⟩
  · have hB : fbanPlanes (2 * N - 1) reality ≠ 1 := by
      rw [fbanPlanes_eq h1]
      cases reality <;> simp [nDim] <;> omega
    have hrs : wignerResampleJ F foldp (fbanPlanes (2 * N - 1) reality) (σ.rings L 0) (σ.ringLen L 0 0)
        (wignerFbanF F.toFftLib a (2 * N - 1) reality) L (fun k => -(nFirst N reality + k)) σ.name
        = .ok (2 * L + 1, 2 * L, fun k => resJ F foldp σ L (wignerFbanF F.toFftLib a (2 * N - 1) reality k)
          (-(nFirst N reality + k)), sMWSS) := by
      unfold wignerResampleJ
      rcases hσ with rfl | rfl
      · rw [if_pos (by decide), if_neg hB]; rfl
      · rw [if_neg (by decide), if_pos (by decide), if_neg hB]; rfl
    unfold precomputeWignerForwardJ
    simp only
    rw [if_neg (by rw [lower_name]; rcases hσ with rfl | rfl <;> decide), hrs]
    simp only [bind, Except.bind]
    rw [if_neg (show ¬inHealpix sMWSS by decide), if_neg]
    · rfl
    · rw [fbanPlanes_eq h1]
      simp [mOffset]
  · exact wignerForwardF_resampled F.toFftLib nodes hσ hL1 h1 hN (resJ_near F foldp hR hL hL1)
      (quadWeightsTransformJ_near F fuse foldw hR hL hL1) hd hM hf hre hn e0 e1 hm

/-- The round trip on the grids of McEwen–Wiaux: each coefficient comes back up to `8π² L^(3/2) / 2³³`
times the size of the coefficients. -/
theorem C62_wigner_round_trip_mw (F : XlaLib) (fuse : ℤ → Bool) (foldw foldp : Bool) (lg : ℤ → ℤ → ℝ)
    (logL : ℝ) (w : ℤ → ℝ) (σ : Scheme) (hσ : σ = .mw ∨ σ = .mwss) (L N : ℤ) (hL1 : L ≤ 2 ^ 26)
    (hN2 : 2 ≤ N) (hN : N ≤ L) (reality : Bool) (mode : PyStr) (hm : ModeOk σ L mode)
    (flmn : ℤ → ℤ → ℤ → ℂ) (hre : RealPlane flmn L N reality) :
    ∃ Ki Kf f out, wignerKernelJ F lg logL w L N reality σ.name false mode = .ok Ki ∧
      wignerKernelJ F lg logL (quadWeightsTransformJ F fuse foldw L) L N reality σ.name true mode
        = .ok Kf ∧
      precomputeWignerInverseF (jaxFft F.toFftLib) (.d3 (2 * N - 1) L (2 * L - 1) flmn) Ki L N σ.name
        reality = .ok f ∧
      precomputeWignerForwardJ F foldp f Kf L N σ.name reality = .ok (.d3 (2 * N - 1) L (2 * L - 1) out) ∧
      ∀ n el m, |n| < N → 0 ≤ el → el < L → |m| < L → ‖out (N - 1 + n) el (m + L - 1)
          - (if |n| ≤ el ∧ |m| ≤ el then wignerCoeffs flmn L N reality n el m else 0)‖
        ≤ 8 * Real.pi ^ 2 * (so3CoeffSize L N reality flmn * (L * √L / 2 ^ 33)) + 1 / 2 ^ 700 := by
  have h1 : 1 ≤ N := by omega
  obtain ⟨Ki, f, e1, e2, e3, -, hf⟩ := C62_wigner_inverse F lg (fun _ _ => 0) logL w σ (by tauto) L N hL1
    h1 hN reality mode hm flmn hre
  have hM : ∀ g t p, 0 ≤ g → g < 2 * N - 1 → σ.Has L 0 t p → ‖f.get3 g t p‖
      ≤ so3CoeffSize L N reality flmn + (L * √L / 2 ^ 41 * so3CoeffSize L N reality flmn
        + 1 / 2 ^ 900) := fun g t p g0 g1 hp => by
    have h1 := hf g t p g0 g1 hp
    have h2 := norm_le_norm_add_norm_sub' (f.get3 g t p) (wignerSum 0 L N (wignerCoeffs flmn L N reality)
      (σ.phi L 0 t p) (σ.theta (fun _ _ => 0) L 0 t) (gammaAt N g))
    have h3 := wignerSum_le hre (σ.phi L 0 t p) (σ.theta (fun _ _ => 0) L 0 t) (gammaAt N g)
    linarith
  obtain ⟨Kf, out, e6, e7, ho⟩ := C62_wigner_forward_mw F fuse foldw foldp lg (fun _ _ => 0) logL σ hσ L N
    hL1 hN2 hN reality mode hm (wignerCoeffs flmn L N reality) f _ _ e3 hM hf
    (fun h => by subst h; exact wignerCoeffs_real hre.origin)
  refine ⟨Ki, Kf, f, out, e1, e6, e2, e7, fun n el m hn e0 e1 hm =>
    le_trans (ho n el m hn e0 e1 hm) ?_⟩
  exact wignerRoundTrip_resampled (h1.trans hN) hL1 (so3CoeffSize_nonneg L N reality flmn)

/-- For a single direction the resampling drops the dimension of the directions, and the Fourier transform
after it fails. -/
theorem C62_wigner_forward_single (F : XlaLib) (fold : Bool) (σ : Scheme) (hσ : σ = .mw ∨ σ = .mwss) (L : ℤ)
    (reality : Bool) (f : Nd ℂ) (hL : 1 ≤ L) (hsh : f.shape = 1 :: σ.shape L 0) (K : Nd4) :
    precomputeWignerForwardJ F fold f K L 1 σ.name reality = .error .indexError := by
  obtain ⟨a, rfl⟩ : ∃ a, f = .d3 1 (σ.rings L 0) (σ.ringLen L 0 0) a := by
    rcases hσ with rfl | rfl <;> exact Nd.eq_d3 (by omega) hsh
  have hB : fbanPlanes 1 reality = 1 := by cases reality <;> rfl
  unfold precomputeWignerForwardJ wignerResampleJ
  simp only
  rw [hB]
  rcases hσ with rfl | rfl
  · rw [if_neg (by decide), if_pos (by decide)]; rfl
  · rw [if_neg (by decide), if_neg (by decide), if_pos (by decide)]; rfl

/-- A compiler that contracts multiplications with additions and divides by multiplying, and
coefficients of a signal of spin 2. -/
example := C62_round_trip_mw fusedXlaLib (fun _ => true) true true (fun _ _ => 0) (fun _ => 0) .mw (by simp)
  16 2 (by norm_num) (by norm_num) (by norm_num) false (by simp) (fun l m => l + m * Complex.I) (by simp)

/-- A real signal, with some of the weights added without contraction. -/
example := C62_round_trip_mw fusedXlaLib (fun t => decide (t = 3)) false false (fun _ _ => 0) (fun _ => 0)
  .mwss (by simp) 1024 0 (by norm_num) (by norm_num) (by norm_num) true (by simp)
  (fun l m => (l + m : ℝ)) (by intro _ l _ _; exact Complex.ofReal_im _)

/-- A signal on the rotation group with 64 degrees and three directions on each side. -/
example := C62_wigner_round_trip_mw fusedXlaLib (fun _ => true) false true (fun _ _ => 0) 4 (fun _ => 0) .mw
  (by simp) 64 4 (by norm_num) (by norm_num) (by norm_num) false mdAuto
  ⟨by simp, fun h => absurd h (by decide), fun _ h => by simp at h⟩
  (fun n l m => n + l + m * Complex.I) (by simp [RealPlane])

/-- `C62_round_trip_gl` on the Gauss–Legendre grid with exact tables, which exist. -/
example : True := by
  obtain ⟨nodes, _, h⟩ := C24_gl_tables
  have := C62_round_trip_gl fusedXlaLib nodes nodes (glWeights nodes) (fun _ => 0) (glWeights nodes 64) 64 1
    (by norm_num) (by norm_num) (h 64 (by norm_num)).1 (by norm_num) false (by simp) (1 / 2 ^ 48) (1 / 2 ^ 48)
    (fun t _ _ => by show |Real.arccos _ - Real.arccos _| ≤ _; simp) (by norm_num) (fun t _ _ => by simp) (by norm_num) (by norm_num)
    (fun l m => l + m * Complex.I) (by simp)
  trivial

end S2fft
